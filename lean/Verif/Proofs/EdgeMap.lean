import Verif.Proofs.Lists

namespace LPG

/-- `EMRep P f em xs`: the edge map `em` (using slot `P`) contains exactly the edges `xs`, in insertion order,
where edge `x` is filed under the label `f x`. -/
structure EMRep (P : Slot) (f : Nat → String) (em : EdgeMap) (xs : List Nat) : Prop where
  nodup : xs.Nodup
  n : em.n = xs.length
  only : em.only = if xs.length = 1 then xs.head? else none
  keys : (AMap.keys em.lists).Nodup
  small : xs.length ≤ 1 → em.lists = []
  getNone : 2 ≤ xs.length → ∀ l, em.lists.get l = none → xs.filter (fun x => f x = l) = []
  getSome : 2 ≤ xs.length → ∀ l el, em.lists.get l = some el →
    xs.filter (fun x => f x = l) ≠ [] ∧ DLL P el (xs.filter (fun x => f x = l))

theorem EMRep.empty (P : Slot) (f : Nat → String) : EMRep P f EdgeMap.empty [] := by
  constructor <;> simp [EdgeMap.empty, AMap.keys]

theorem EMRep.congr {P Q : Slot} {f g : Nat → String} {em : EdgeMap} {xs : List Nat}
    (hP : ∀ x ∈ xs, Q x = P x) (hf : ∀ x ∈ xs, g x = f x) (h : EMRep P f em xs) : EMRep Q g em xs := by
  have hfil : ∀ l, xs.filter (fun x => g x = l) = xs.filter (fun x => f x = l) := by
    intro l; apply List.filter_congr; intro x hx; simp [hf x hx]
  refine ⟨h.nodup, h.n, h.only, h.keys, h.small, ?_, ?_⟩
  · intro h2 l hl; rw [hfil]; exact h.getNone h2 l hl
  · intro h2 l el hl; rw [hfil]
    obtain ⟨h3, h4⟩ := h.getSome h2 l el hl
    exact ⟨h3, h4.congr (fun x hx => hP x (List.mem_filter.1 hx).1)⟩

/-- the part of the representation about the label lists, without size restrictions -/
structure LRep (P : Slot) (f : Nat → String) (lists : AMap String EList) (xs : List Nat) : Prop where
  nodup : xs.Nodup
  keys : (AMap.keys lists).Nodup
  getNone : ∀ l, lists.get l = none → xs.filter (fun x => f x = l) = []
  getSome : ∀ l el, lists.get l = some el →
    xs.filter (fun x => f x = l) ≠ [] ∧ DLL P el (xs.filter (fun x => f x = l))

theorem doAdd_spec {P : Slot} {f : Nat → String} {em : EdgeMap} {xs : List Nat} {e : Nat}
    (h : LRep P f em.lists xs) (he : e ∉ xs) :
    LRep (em.doAdd P (f e) e).1 f (em.doAdd P (f e) e).2.lists (xs ++ [e]) ∧
    (em.doAdd P (f e) e).2.n = em.n ∧ (em.doAdd P (f e) e).2.only = em.only ∧
    ∀ x, x ∉ xs → x ≠ e → (em.doAdd P (f e) e).1 x = P x := by
  have hfe : e ∉ xs.filter (fun x => f x = f e) := fun hh => he (List.mem_filter.1 hh).1
  have hnd : (xs.filter (fun x => f x = f e)).Nodup := h.nodup.filter _
  have hex : ∃ el : EList, DLL P el (xs.filter (fun x => f x = f e)) ∧
      em.doAdd P (f e) e = ((el.add P e).1, { em with lists := em.lists.set (f e) (el.add P e).2 }) := by
    cases hg : em.lists.get (f e) with
    | none =>
      refine ⟨{ head := .none, tail := .none, n := 0 }, ?_, ?_⟩
      · rw [h.getNone _ hg]; exact ⟨rfl, rfl, rfl, trivial⟩
      · simp [EdgeMap.doAdd, hg]
    | some el => exact ⟨el, (h.getSome _ _ hg).2, by simp [EdgeMap.doAdd, hg]⟩
  obtain ⟨el, hdll, heq⟩ := hex
  obtain ⟨hadd, hframe⟩ := EList.add_spec hdll hnd hfe
  rw [heq]
  refine ⟨⟨?_, ?_, ?_, ?_⟩, rfl, rfl, ?_⟩
  · rw [List.nodup_append]; refine ⟨h.nodup, by simp, ?_⟩
    intro a ha b hb; simp at hb; subst hb; rintro rfl; exact he ha
  · exact AMap.nodup_set h.keys _ _
  · intro l hl
    rw [AMap.get_set] at hl
    by_cases hle : l = f e
    · simp [hle] at hl
    · simp only [hle, if_false] at hl
      rw [List.filter_append, h.getNone l hl]; simp [Ne.symm hle]
  · intro l el' hl
    simp only [AMap.get_set] at hl
    by_cases hle : l = f e
    · subst hle
      simp only [if_true, Option.some.injEq] at hl
      subst hl
      have : (xs ++ [e]).filter (fun x => f x = f e) = xs.filter (fun x => f x = f e) ++ [e] := by simp
      rw [this]; exact ⟨by simp, hadd⟩
    · simp only [hle, if_false] at hl
      have : (xs ++ [e]).filter (fun x => f x = l) = xs.filter (fun x => f x = l) := by simp [Ne.symm hle]
      rw [this]
      obtain ⟨h1, h2⟩ := h.getSome l el' hl
      refine ⟨h1, h2.congr ?_⟩
      intro x hx
      simp at hx
      apply hframe
      · simp; intro _ h'; exact hle (by rw [← hx.2, h'])
      · rintro rfl; exact he hx.1
  · intro x hx hxe
    exact hframe x (fun hh => hx (List.mem_filter.1 hh).1) hxe

theorem EMRep.lrep {P : Slot} {f : Nat → String} {em : EdgeMap} {xs : List Nat} (h : EMRep P f em xs) (h2 : 2 ≤ xs.length) : LRep P f em.lists xs :=
  ⟨h.nodup, h.keys, h.getNone h2, h.getSome h2⟩

theorem EMRep.of_lrep {P : Slot} {f : Nat → String} {em : EdgeMap} {xs : List Nat} (h : LRep P f em.lists xs) (h2 : 2 ≤ xs.length) (hn : em.n = xs.length)
    (ho : em.only = .none) : EMRep P f em xs :=
  ⟨h.nodup, hn, by rw [ho, if_neg (by omega)], h.keys, by omega, fun _ => h.getNone, fun _ => h.getSome⟩

theorem EdgeMap.add_spec {P : Slot} {f : Nat → String} {em : EdgeMap} {xs : List Nat} {e : Nat}
    (h : EMRep P f em xs) (he : e ∉ xs) :
    ∃ P' em', em.add P f e = some (P', em') ∧ EMRep P' f em' (xs ++ [e]) ∧
      ∀ x, x ∉ xs → x ≠ e → P' x = P x := by
  match xs, h, he with
  | [], h, _ =>
    have hn : em.n = 0 := by simpa using h.n
    refine ⟨P, { em with only := some e, n := 1 }, by simp [EdgeMap.add, hn], ?_, by simp⟩
    have := h.small (by simp)
    constructor <;> simp [this, AMap.keys]
  | [o], h, he =>
    have hn : em.n = 1 := by simpa using h.n
    have ho : em.only = some o := by simpa using h.only
    obtain ⟨lists, only, n⟩ := em
    simp only at hn ho
    subst hn; subst ho
    have h0 : LRep P f (EdgeMap.mk [] (some o) 1).lists [] := by
      constructor <;> simp [AMap.keys]
    obtain ⟨h1, hn1, ho1, hf1⟩ := doAdd_spec (e := o) h0 (by simp)
    generalize hr1 : EdgeMap.doAdd P (EdgeMap.mk [] (some o) 1) (f o) o = r1 at h1 hn1 ho1 hf1
    have h1' : LRep r1.1 f (EdgeMap.mk r1.2.lists .none r1.2.n).lists [o] := by simpa using h1
    obtain ⟨h2, hn2, ho2, hf2⟩ := doAdd_spec (e := e) h1' he
    generalize hr2 : EdgeMap.doAdd r1.1 (EdgeMap.mk r1.2.lists .none r1.2.n) (f e) e = r2 at h2 hn2 ho2 hf2
    refine ⟨r2.1, { r2.2 with n := 2 }, ?_, ?_, ?_⟩
    · simp [EdgeMap.add, hr1, hr2]
    · exact EMRep.of_lrep h2 (by simp) (by simp) (by simp [ho2])
    · intro x hx hxe
      rw [hf2 x hx hxe]; simp at hx; exact hf1 x (by simp) hx
  | a :: b :: xs, h, he =>
    have hn : em.n = (xs.length : Int) + 2 := by have := h.n; simp at this; omega
    have h0 := h.lrep (by simp)
    obtain ⟨h1, hn1, ho1, hf1⟩ := doAdd_spec (e := e) h0 he
    generalize hr1 : EdgeMap.doAdd P em (f e) e = r1 at h1 hn1 ho1 hf1
    refine ⟨r1.1, { r1.2 with n := r1.2.n + 1 }, ?_, ?_, hf1⟩
    · have e0 : ¬ em.n = 0 := by omega
      have e1 : ¬ em.n = 1 := by omega
      simp [EdgeMap.add, e0, e1, hr1]
    · refine EMRep.of_lrep h1 (by simp) (by simp [hn1, hn]; omega) ?_
      have := h.only
      simp at this
      simp [ho1, this]

theorem filter_erase_ne {xs : List Nat} {f : Nat → String} {e : Nat} {l : String} (h : f e ≠ l) :
    (xs.erase e).filter (fun x => f x = l) = xs.filter (fun x => f x = l) := by
  induction xs with
  | nil => simp
  | cons x xs ih =>
    rw [List.erase_cons]
    by_cases hx : x = e
    · subst hx; simp [h]
    · simp only [beq_iff_eq, hx, if_false, List.filter_cons, ih]

theorem filter_erase_eq {xs : List Nat} {f : Nat → String} {e : Nat} :
    (xs.erase e).filter (fun x => f x = f e) = (xs.filter (fun x => f x = f e)).erase e := by
  induction xs with
  | nil => simp
  | cons x xs ih =>
    rw [List.erase_cons]
    by_cases hx : x = e
    · subst hx; simp
    · simp only [beq_iff_eq, hx, if_false, List.filter_cons, ih]
      split
      · rw [List.erase_cons]; simp [hx]
      · rfl

theorem split_of_mem {xs : List Nat} {e : Nat} (hn : xs.Nodup) (h : e ∈ xs) :
    ∃ as bs, xs = as ++ e :: bs ∧ xs.erase e = as ++ bs := by
  obtain ⟨as, bs, rfl⟩ := List.append_of_mem h
  refine ⟨as, bs, rfl, ?_⟩
  have : e ∉ as := by
    rw [List.nodup_append] at hn
    intro h'; exact hn.2.2 e h' e (by simp) rfl
  rw [List.erase_append_right _ this]; simp

/-- With two or more edges, the pointers of those that stay are those of label lists. -/
theorem EdgeMap.remove_spec_lists {P : Slot} {f : Nat → String} {em : EdgeMap} {xs : List Nat} {e : Nat}
    (h : EMRep P f em xs) (he : e ∈ xs) :
    EMRep (em.remove P f e).1 f (em.remove P f e).2 (xs.erase e) ∧
      (∀ x, x ∉ xs → (em.remove P f e).1 x = P x) ∧
      (2 ≤ xs.length → ∃ lists, LRep (em.remove P f e).1 f lists (xs.erase e)) := by
  by_cases hlen : xs.length ≤ 1
  · match xs, h, he with
    | [], h, he => simp at he
    | [o], h, he =>
      have hn : em.n = 1 := by simpa using h.n
      have ho : em.only = some o := by simpa using h.only
      simp at he; subst he
      have hsm := h.small (by simp)
      refine ⟨?_, ?_, by simp⟩
      · simp [EdgeMap.remove, hn, ho]
        constructor <;> simp [hsm, AMap.keys]
      · intro x _; simp [EdgeMap.remove, hn, ho]
    | a :: b :: xs, h, he => simp at hlen
  · have h2 : 2 ≤ xs.length := by omega
    have e0 : ¬ em.n = 0 := by have := h.n; omega
    have e1 : ¬ em.n = 1 := by have := h.n; omega
    have hmem : e ∈ xs.filter (fun x => f x = f e) := by simp [he]
    cases hg : em.lists.get (f e) with
    | none => rw [h.getNone h2 _ hg] at hmem; simp at hmem
    | some el =>
      obtain ⟨_, hd⟩ := h.getSome h2 _ _ hg
      have hnd : (xs.filter (fun x => f x = f e)).Nodup := h.nodup.filter _
      obtain ⟨as, bs, hab, hab'⟩ := split_of_mem hnd hmem
      rw [hab] at hd hnd
      obtain ⟨hr, hfr⟩ := EList.remove_spec hd hnd
      rw [← hab] at hfr
      rw [← hab', ← filter_erase_eq] at hr
      generalize hel : el.remove P e = r at hr hfr
      have hlen' : (xs.erase e).length = xs.length - 1 := List.length_erase_of_mem he
      -- the lists after the removal
      let lists' := if r.2.n = 0 then em.lists.del (f e) else em.lists.set (f e) r.2
      have hL : LRep r.1 f lists' (xs.erase e) := by
        have hsub : ∀ x, x ∈ xs.erase e → x ∈ xs := fun x hx => List.mem_of_mem_erase hx
        refine ⟨h.nodup.erase _, ?_, ?_, ?_⟩
        · simp only [lists']; split
          · exact AMap.nodup_del h.keys _
          · exact AMap.nodup_set h.keys _ _
        · intro l hl
          simp only [lists'] at hl
          by_cases hle : l = f e
          · subst hle
            split at hl
            · rename_i h0
              have := hr.n; rw [h0] at this
              exact List.eq_nil_of_length_eq_zero (by omega)
            · simp [AMap.get_set] at hl
          · rw [filter_erase_ne (Ne.symm hle)]
            split at hl
            · rw [AMap.get_del, if_neg hle] at hl; exact h.getNone h2 l hl
            · rw [AMap.get_set, if_neg hle] at hl; exact h.getNone h2 l hl
        · intro l el' hl
          simp only [lists'] at hl
          by_cases hle : l = f e
          · subst hle
            split at hl
            · simp [AMap.get_del] at hl
            · rename_i h0
              simp [AMap.get_set] at hl; subst hl
              refine ⟨?_, hr⟩
              intro hnil
              have := hr.n; rw [hnil] at this; exact h0 (by simpa using this)
          · rw [filter_erase_ne (Ne.symm hle)]
            have hl' : em.lists.get l = some el' := by
              split at hl
              · rwa [AMap.get_del, if_neg hle] at hl
              · rwa [AMap.get_set, if_neg hle] at hl
            obtain ⟨h3, h4⟩ := h.getSome h2 l el' hl'
            refine ⟨h3, h4.congr ?_⟩
            intro x hx
            simp at hx
            apply hfr
            simp; intro _ h'; exact hle (by rw [← hx.2, h'])
      have hrem : em.remove P f e = (r.1,
          let em2 : EdgeMap := { em with lists := lists', n := em.n - 1 }
          if em2.n = 1 then
            { (match em2.lists.getLast? with
              | .none => em2
              | .some (_, l) => { em2 with only := l.head }) with lists := [] }
          else em2) := by
        simp only [EdgeMap.remove, e0, e1, if_false, hg, hel, lists']
        split <;> rfl
      rw [hrem]
      refine ⟨?_, ?_, fun _ => ⟨lists', hL⟩⟩
      · have hno : em.only = .none := by
          have := h.only; rwa [if_neg (by omega)] at this
        by_cases hone : em.n - 1 = 1
        · -- two edges before, one left
          have hx2 : (xs.erase e).length = 1 := by have := h.n; omega
          obtain ⟨o, ho⟩ := List.length_eq_one_iff.1 hx2
          rw [ho] at hL ⊢
          have hgo : ∃ el, lists'.get (f o) = some el := by
            cases hgg : lists'.get (f o) with
            | none => have := hL.getNone _ hgg; simp at this
            | some el => exact ⟨el, rfl⟩
          obtain ⟨elo, hgo⟩ := hgo
          have hall : ∀ p ∈ lists', p = (f o, elo) := by
            intro p hp
            have hp' : lists'.get p.1 = some p.2 := AMap.get_of_mem hL.keys hp
            have := (hL.getSome _ _ hp').1
            by_cases hpo : f o = p.1
            · rw [← hpo, hgo] at hp'; cases hp'
              exact Prod.ext hpo.symm rfl
            · simp [hpo] at this
          have hlast : lists'.getLast? = some (f o, elo) := by
            cases hl : lists'.getLast? with
            | none => rw [List.getLast?_eq_none_iff] at hl; rw [hl] at hgo; simp at hgo
            | some p => rw [hall p (List.mem_of_getLast? hl)]
          have hd := (hL.getSome _ _ hgo).2
          have hhead : elo.head = some o := by simpa using hd.head
          simp only [hone, if_true, hlast]
          constructor <;> simp [AMap.keys, hhead]
        · simp only [hone, if_false]
          refine EMRep.of_lrep hL ?_ ?_ hno
          · have := h.n; omega
          · have := h.n; simp; omega
      · intro x hx
        exact hfr x (fun hh => hx (List.mem_filter.1 hh).1)

theorem EdgeMap.remove_spec {P : Slot} {f : Nat → String} {em : EdgeMap} {xs : List Nat} {e : Nat}
    (h : EMRep P f em xs) (he : e ∈ xs) :
    EMRep (em.remove P f e).1 f (em.remove P f e).2 (xs.erase e) ∧
      ∀ x, x ∉ xs → (em.remove P f e).1 x = P x :=
  ⟨(EdgeMap.remove_spec_lists h he).1, (EdgeMap.remove_spec_lists h he).2.1⟩

/-! ## Enumeration -/

theorem concatOpt_some : ∀ (l : List (List Nat)), concatOpt (l.map some) = some l.flatten
  | [] => rfl
  | a :: l => by simp [concatOpt, concatOpt_some l]

theorem perm_flatten_filter {f : Nat → String} : ∀ (ks : List String) (xs : List Nat), ks.Nodup →
    (∀ x ∈ xs, f x ∈ ks) → ((ks.map (fun l => xs.filter (fun x => f x = l))).flatten).Perm xs := by
  intro ks
  induction ks with
  | nil =>
    intro xs _ h
    cases xs with
    | nil => simp
    | cons x xs => have := h x (by simp); simp at this
  | cons k ks ih =>
    intro xs hn h
    simp only [List.map_cons, List.flatten_cons]
    have hn' := List.nodup_cons.1 hn
    have e1 : ks.map (fun l => xs.filter (fun x => f x = l)) =
        ks.map (fun l => (xs.filter (fun x => ¬ f x = k)).filter (fun x => f x = l)) := by
      apply List.map_congr_left
      intro l hl
      rw [List.filter_filter]
      apply List.filter_congr
      intro x _
      by_cases hx : f x = l
      · have : l ≠ k := by rintro rfl; exact hn'.1 hl
        simp [hx, this]
      · simp [hx]
    rw [e1]
    have h2 := ih (xs.filter (fun x => ¬ f x = k)) hn'.2 (by
      intro x hx
      simp at hx
      have := h x hx.1
      simp at this
      rcases this with h3 | h3
      · exact absurd h3 hx.2
      · exact h3)
    refine (List.Perm.append_left _ h2).trans ?_
    have := List.filter_append_perm (fun x => decide (f x = k)) xs
    simpa using this

theorem EMRep.enum {P : Slot} {f : Nat → String} {em : EdgeMap} {xs : List Nat} {fuel : Nat}
    (h : EMRep P f em xs) (hf : xs.length ≤ fuel) : ∃ ys, em.enum P fuel = some ys ∧ ys.Perm xs := by
  match xs, h, hf with
  | [], h, _ =>
    have hn : em.n = 0 := by simpa using h.n
    exact ⟨[], by simp [EdgeMap.enum, hn], List.Perm.nil⟩
  | [o], h, _ =>
    have hn : em.n = 1 := by simpa using h.n
    have ho : em.only = some o := by simpa using h.only
    exact ⟨[o], by simp [EdgeMap.enum, hn, ho], List.Perm.refl _⟩
  | a :: b :: xs, h, hf =>
    have hn := h.n
    simp at hn
    have e0 : ¬ em.n = 0 := by omega
    have e1 : ¬ em.n = 1 := by omega
    have hl := h.lrep (by simp)
    generalize hxs : a :: b :: xs = zs at *
    refine ⟨((AMap.keys em.lists).map (fun l => zs.filter (fun x => f x = l))).flatten, ?_, ?_⟩
    · rw [EdgeMap.enum, if_neg e0, if_neg e1, ← concatOpt_some]
      congr 1
      rw [AMap.keys, List.map_map, List.map_map]
      apply List.map_congr_left
      intro p hp
      have hg : em.lists.get p.1 = some p.2 := AMap.get_of_mem hl.keys hp
      have := (hl.getSome _ _ hg).2
      apply this.walk
      exact Nat.le_trans (List.length_filter_le _ _) hf
    · apply perm_flatten_filter _ _ hl.keys
      intro x hx
      apply Classical.byContradiction
      intro hc
      have := hl.getNone _ (AMap.not_mem_keys.1 hc)
      have hm : x ∈ zs.filter (fun y => f y = f x) := by simp [hx]
      rw [this] at hm; simp at hm

theorem EMRep.enumLabel {P : Slot} {f : Nat → String} {em : EdgeMap} {xs : List Nat} {fuel : Nat} (l : String)
    (h : EMRep P f em xs) (hf : xs.length ≤ fuel) :
    em.enumLabel P f fuel l = some (xs.filter (fun x => f x = l)) := by
  match xs, h, hf with
  | [], h, _ =>
    have hn : em.n = 0 := by simpa using h.n
    simp [EdgeMap.enumLabel, hn]
  | [o], h, _ =>
    have hn : em.n = 1 := by simpa using h.n
    have ho : em.only = some o := by simpa using h.only
    have hs := h.small (by simp)
    by_cases hl : l = f o
    · simp [EdgeMap.enumLabel, hn, ho, hl]
    · simp [EdgeMap.enumLabel, hn, ho, hl, hs, Ne.symm hl]
  | a :: b :: xs, h, hf =>
    have hn := h.n
    simp at hn
    have e0 : ¬ em.n = 0 := by omega
    have e1 : ¬ em.n = 1 := by omega
    have hl := h.lrep (by simp)
    generalize hxs : a :: b :: xs = zs at *
    simp only [EdgeMap.enumLabel, e0, e1, if_false]
    cases hg : em.lists.get l with
    | none => simp [hl.getNone _ hg]
    | some el =>
      apply (hl.getSome _ _ hg).2.walk
      exact Nat.le_trans (List.length_filter_le _ _) hf

theorem EMRep.enumAny {P : Slot} {f : Nat → String} {em : EdgeMap} {xs : List Nat} {fuel : Nat} {ls : List String}
    (hls : ls.Nodup) (h : EMRep P f em xs) (hf : xs.length ≤ fuel) :
    ∃ ys, em.enumAny P f fuel ls = some ys ∧ ys.Perm (xs.filter (fun x => f x ∈ ls)) := by
  have h0 := h
  match xs, h, hf with
  | [], h, _ =>
    have hn : em.n = 0 := by simpa using h.n
    exact ⟨[], by simp [EdgeMap.enumAny, hn], by simp⟩
  | [o], h, _ =>
    have hn : em.n = 1 := by simpa using h.n
    have ho : em.only = some o := by simpa using h.only
    by_cases hl : f o ∈ ls
    · exact ⟨[o], by simp [EdgeMap.enumAny, hn, ho, hl], by simp [hl]⟩
    · exact ⟨[], by simp [EdgeMap.enumAny, hn, ho, hl], by simp [hl]⟩
  | a :: b :: xs, h, hf =>
    have hn := h.n
    simp at hn
    have e0 : ¬ em.n = 0 := by omega
    have e1 : ¬ em.n = 1 := by omega
    have hl := h.lrep (by simp)
    generalize hxs : a :: b :: xs = zs at *
    refine ⟨((ls.filter (fun l => (em.lists.get l).isSome)).map
      (fun l => zs.filter (fun x => f x = l))).flatten, ?_, ?_⟩
    · rw [EdgeMap.enumAny, if_neg e0, if_neg e1, ← concatOpt_some, List.map_map]
      congr 1
      apply List.map_congr_left
      intro l _
      exact h0.enumLabel l hf
    · have e2 : (ls.filter (fun l => (em.lists.get l).isSome)).map (fun l => zs.filter (fun x => f x = l)) =
        (ls.filter (fun l => (em.lists.get l).isSome)).map
          (fun l => (zs.filter (fun x => f x ∈ ls)).filter (fun x => f x = l)) := by
        apply List.map_congr_left
        intro l hl'
        rw [List.filter_filter]
        apply List.filter_congr
        intro x _
        by_cases hx : f x = l
        · have := (List.mem_filter.1 hl').1
          simp [hx, this]
        · simp [hx]
      rw [e2]
      apply perm_flatten_filter _ _ (hls.filter _)
      intro x hx
      simp at hx
      rw [List.mem_filter]
      refine ⟨hx.2, ?_⟩
      cases hg : em.lists.get (f x) with
      | some el => rfl
      | none =>
        have := hl.getNone _ hg
        have hm : x ∈ zs.filter (fun y => f y = f x) := by simp [hx.1]
        rw [this] at hm; simp at hm

end LPG
