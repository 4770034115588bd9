import Verif.Model.EdgeHeap
import Verif.Proofs.Base

namespace LPG

/-! ## Maps whose values are addresses -/

/-- Follow the addresses. -/
def deref (ell : Nat → EList) (m : AMap String Nat) : AMap String EList := m.map (fun p => (p.1, ell p.2))

theorem get_deref (ell : Nat → EList) (k : String) : ∀ m : AMap String Nat, AMap.get (deref ell m) k = (AMap.get m k).map ell
  | [] => rfl
  | (a, b) :: m => by
    have ih := get_deref ell k m
    simp only [deref, List.map_cons, AMap.get] at ih ⊢
    split
    · rfl
    · exact ih

theorem deref_upd_not_mem {ell : Nat → EList} {a : Nat} {l : EList} : ∀ {m : AMap String Nat}, a ∉ m.map Prod.snd →
    deref (upd ell a l) m = deref ell m
  | [], _ => rfl
  | (k, b) :: m, h => by
    simp only [List.map_cons, List.mem_cons, not_or] at h
    have ih := deref_upd_not_mem (ell := ell) (l := l) h.2
    simp only [deref, List.map_cons] at ih ⊢
    rw [ih, upd_other _ _ (Ne.symm h.1)]

theorem deref_upd {ell : Nat → EList} {k : String} {a : Nat} {l : EList} : ∀ {m : AMap String Nat},
    (m.map Prod.snd).Nodup → AMap.get m k = some a → deref (upd ell a l) m = AMap.set (deref ell m) k l
  | [], _, h => by simp at h
  | (k0, b) :: m, hn, h => by
    simp only [List.map_cons, List.nodup_cons] at hn
    by_cases hk : k0 = k
    · subst hk
      have hb : b = a := by simpa [AMap.get] using h
      subst hb
      have := deref_upd_not_mem (ell := ell) (l := l) hn.1
      simp only [deref, List.map_cons] at this ⊢
      rw [this]
      simp [AMap.set]
    · have hg : AMap.get m k = some a := by simpa [AMap.get, hk] using h
      have hba : b ≠ a := by
        rintro rfl
        exact hn.1 (List.mem_map.2 ⟨_, AMap.mem_of_get hg, rfl⟩)
      have ih := deref_upd (ell := ell) (l := l) hn.2 hg
      simp only [deref, List.map_cons] at ih ⊢
      rw [ih, upd_other _ _ hba]
      simp [AMap.set, hk]

theorem deref_set {ell : Nat → EList} {k : String} {a : Nat} {l : EList} {m : AMap String Nat} (ha : a ∉ m.map Prod.snd)
    (h : AMap.get m k = none) : deref (upd ell a l) (AMap.set m k a) = AMap.set (deref ell m) k l := by
  have h2 : AMap.get (deref ell m) k = none := by rw [get_deref, h]; rfl
  rw [AMap.set_of_not_mem h, AMap.set_of_not_mem h2]
  have := deref_upd_not_mem (ell := ell) (l := l) ha
  simp only [deref, List.map_append, List.map_cons, List.map_nil] at this ⊢
  rw [this, upd_same]

theorem deref_del (ell : Nat → EList) (k : String) : ∀ m : AMap String Nat, deref ell (AMap.del m k) = AMap.del (deref ell m) k
  | [] => rfl
  | (a, b) :: m => by
    have ih := deref_del ell k m
    simp only [deref, List.map_cons, AMap.del] at ih ⊢
    split
    · exact ih
    · simp only [List.map_cons]; rw [ih]

theorem values_del {k : String} {a : Nat} : ∀ {m : AMap String Nat}, (m.map Prod.snd).Nodup → (AMap.keys m).Nodup →
    AMap.get m k = some a → (AMap.del m k).map Prod.snd = (m.map Prod.snd).filter (· ≠ a)
  | [], _, _, h => by simp at h
  | (k0, b) :: m, hn, hk, h => by
    simp only [List.map_cons, List.nodup_cons] at hn
    simp only [AMap.keys, List.map_cons, List.nodup_cons] at hk
    by_cases e : k0 = k
    · subst e
      have hb : b = a := by simpa [AMap.get] using h
      subst hb
      have hg : AMap.get m k0 = none := by
        rw [← AMap.not_mem_keys]; exact hk.1
      simp only [AMap.del, if_true, List.map_cons]
      rw [AMap.del_of_not_mem hg, List.filter_cons_of_neg (by simp), eq_comm, List.filter_eq_self]
      intro x hx
      have : x ≠ b := fun e => hn.1 (e ▸ hx)
      simpa using this
    · have hg : AMap.get m k = some a := by simpa [AMap.get, e] using h
      have hba : b ≠ a := by
        rintro rfl
        exact hn.1 (List.mem_map.2 ⟨_, AMap.mem_of_get hg, rfl⟩)
      simp only [AMap.del, e, if_false, List.map_cons]
      rw [List.filter_cons_of_pos (by simpa using hba), values_del hn.2 hk.2 hg]

theorem values_set {k : String} {a : Nat} {m : AMap String Nat} (h : AMap.get m k = none) :
    (AMap.set m k a).map Prod.snd = m.map Prod.snd ++ [a] := by
  rw [AMap.set_of_not_mem h]; simp

namespace HMap

/-- The list and the map of each generation fit together, and addresses are not used twice. -/
structure Wf (h : HMap) : Prop where
  vals : ∀ g, (h.labelMap g).map Prod.snd = h.order g
  keys : ∀ g, (AMap.keys (h.labelMap g)).Nodup
  ord : ∀ g, (h.order g).Nodup
  lt : ∀ g, ∀ a ∈ h.order g, a < h.free
  sep : ∀ g, g ≠ h.gen → ∀ a ∈ h.order g, a ∉ h.order h.gen

/-- The edge map of `Verif.Model.Lists`. -/
def abs (h : HMap) : EdgeMap := { lists := deref h.ell (h.labelMap h.gen), only := h.only, n := h.n }

theorem Wf.empty : Wf empty := by
  constructor <;> simp [HMap.empty, AMap.keys]

theorem abs_empty : abs empty = EdgeMap.empty := rfl

theorem Wf.lazyInit {h : HMap} (w : h.Wf) : h.lazyInit.Wf := by
  have key : ∀ {β : Type} (f : Nat → List β) g, upd f (h.gen + 1) [] g = if g = h.gen + 1 then [] else f g :=
    fun f g => rfl
  constructor
  · intro g; simp only [HMap.lazyInit, upd_apply]; split
    · rfl
    · exact w.vals g
  · intro g; simp only [HMap.lazyInit, upd_apply]; split
    · simp [AMap.keys]
    · exact w.keys g
  · intro g; simp only [HMap.lazyInit, upd_apply]; split
    · simp
    · exact w.ord g
  · intro g a; simp only [HMap.lazyInit, upd_apply]; split
    · simp
    · exact w.lt g a
  · intro g _ a _; simp [HMap.lazyInit]

theorem abs_lazyInit (h : HMap) : h.lazyInit.abs = { h.abs with lists := [] } := by
  simp [HMap.lazyInit, abs, deref]

theorem abs_clear (h : HMap) : h.clear.abs = EdgeMap.empty := by
  simp [HMap.clear, HMap.lazyInit, abs, deref, EdgeMap.empty]

/-- Changes of `only` and `n` do not matter. -/
theorem Wf.fields {h : HMap} (w : h.Wf) (o : Option Nat) (n : Int) : Wf { h with only := o, n := n } :=
  ⟨w.vals, w.keys, w.ord, w.lt, w.sep⟩

theorem Wf.clear {h : HMap} (w : h.Wf) : h.clear.Wf := w.lazyInit.fields _ _

theorem Wf.addr {h : HMap} (w : h.Wf) {g : Nat} {l : String} {a : Nat} (hg : AMap.get (h.labelMap g) l = some a) :
    a ∈ h.order g := by
  rw [← w.vals]; exact List.mem_map.2 ⟨_, AMap.mem_of_get hg, rfl⟩

theorem Wf.nodup {h : HMap} (w : h.Wf) (g : Nat) : ((h.labelMap g).map Prod.snd).Nodup := by
  rw [w.vals]; exact w.ord g

theorem doAdd_abs {P : Slot} {h : HMap} (w : h.Wf) (lbl : String) (e : Nat) :
    (h.doAdd P lbl e).2.Wf ∧ (h.doAdd P lbl e).1 = (h.abs.doAdd P lbl e).1 ∧
      (h.doAdd P lbl e).2.abs = (h.abs.doAdd P lbl e).2 := by
  have hget : AMap.get h.abs.lists lbl = (AMap.get (h.labelMap h.gen) lbl).map h.ell := get_deref _ _ _
  cases hg : AMap.get (h.labelMap h.gen) lbl with
  | none =>
    have hfree : ∀ g, h.free ∉ h.order g := fun g hh => Nat.lt_irrefl _ (w.lt g _ hh)
    rw [hg] at hget
    simp only [HMap.doAdd, hg, EdgeMap.doAdd, hget, Option.map_none]
    refine ⟨?_, trivial, ?_⟩
    · constructor
      · intro g; simp only [upd_apply]; split
        · rename_i hh; subst hh; rw [values_set hg, w.vals]
        · exact w.vals g
      · intro g; simp only [upd_apply]; split
        · exact AMap.nodup_set (w.keys _) _ _
        · exact w.keys g
      · intro g; simp only [upd_apply]; split
        · rw [List.nodup_append]
          refine ⟨w.ord _, by simp, ?_⟩
          intro a ha b hb
          simp only [List.mem_singleton] at hb
          rintro rfl
          exact hfree _ (hb ▸ ha)
        · exact w.ord g
      · intro g a; simp only [upd_apply]; split
        · intro ha
          rcases List.mem_append.1 ha with ha | ha
          · exact Nat.lt_succ_of_lt (w.lt _ a ha)
          · simp only [List.mem_singleton] at ha; omega
        · intro ha; exact Nat.lt_succ_of_lt (w.lt g a ha)
      · intro g hgn a
        simp only [upd_apply, if_neg hgn, if_true]
        intro ha hb
        rcases List.mem_append.1 hb with hb | hb
        · exact w.sep g hgn a ha hb
        · simp only [List.mem_singleton] at hb
          exact hfree g (hb ▸ ha)
    · have hv : h.free ∉ (h.labelMap h.gen).map Prod.snd := by rw [w.vals]; exact hfree _
      simp only [abs, upd_same]
      rw [deref_set hv hg]
  | some a =>
    rw [hg] at hget
    simp only [HMap.doAdd, hg, EdgeMap.doAdd, hget, Option.map_some]
    refine ⟨⟨w.vals, w.keys, w.ord, w.lt, w.sep⟩, trivial, ?_⟩
    simp only [abs]
    rw [deref_upd (w.nodup _) hg]

theorem add_abs {P : Slot} {label : Nat → String} {h : HMap} (w : h.Wf) (e : Nat) :
    (∀ r, h.add P label e = some r → r.2.Wf) ∧
      (h.add P label e).map (fun r => (r.1, r.2.abs)) = h.abs.add P label e := by
  unfold HMap.add EdgeMap.add
  by_cases h0 : h.n = 0
  · have : h.abs.n = 0 := h0
    simp only [h0, this, if_true, Option.map_some]
    refine ⟨?_, rfl⟩
    intro r hr; cases hr; exact w.fields _ _
  · have h0' : ¬ h.abs.n = 0 := h0
    simp only [if_neg h0, if_neg h0']
    by_cases h1 : h.n = 1
    · have h1' : h.abs.n = 1 := h1
      simp only [if_pos h1, if_pos h1']
      cases ho : h.only with
      | none =>
        have : h.abs.only = none := ho
        simp [this]
      | some o =>
        have : h.abs.only = some o := ho
        simp only [this]
        obtain ⟨w1, e1, e2⟩ := doAdd_abs (P := P) w.lazyInit (label o) o
        obtain ⟨w2, e3, e4⟩ := doAdd_abs (P := (h.lazyInit.doAdd P (label o) o).1) (w1.fields none (h.lazyInit.doAdd P (label o) o).2.n)
          (label e) e
        rw [abs_lazyInit] at e1 e2
        refine ⟨?_, ?_⟩
        · intro r hr; cases hr; exact w2.fields _ _
        · simp only [Option.map_some, Option.some.injEq]
          have e5 : ({ (h.lazyInit.doAdd P (label o) o).2 with only := none } : HMap).abs
              = { (EdgeMap.doAdd P { h.abs with lists := [] } (label o) o).2 with only := none } := by
            rw [← e2]; rfl
          have e6 : ∀ x : HMap, ({ x with n := 2 } : HMap).abs = { x.abs with n := 2 } := fun x => rfl
          rw [e6]
          rw [show ({ (h.lazyInit.doAdd P (label o) o).2 with only := none } : HMap)
              = { (h.lazyInit.doAdd P (label o) o).2 with only := none, n := (h.lazyInit.doAdd P (label o) o).2.n } from rfl] at e5 ⊢
          rw [e3, e4, e5, e1]
          simp only [this]
    · have h1' : ¬ h.abs.n = 1 := h1
      simp only [if_neg h1, if_neg h1', Option.map_some]
      obtain ⟨w1, e1, e2⟩ := doAdd_abs (P := P) w (label e) e
      refine ⟨?_, ?_⟩
      · intro r hr; cases hr; exact w1.fields _ _
      · rw [← e1, ← e2]; rfl

theorem getLast?_deref (ell : Nat → EList) (m : AMap String Nat) :
    (deref ell m).getLast? = m.getLast?.map (fun p => (p.1, ell p.2)) := by
  simp [deref, List.getLast?_map]

theorem shrink_abs {h : HMap} (w : h.Wf) : h.shrink.Wf ∧ h.shrink.abs =
    if h.abs.n = 1 then
      { (match h.abs.lists.getLast? with
          | none => h.abs
          | some (_, l) => { h.abs with only := l.head }) with lists := [] }
    else h.abs := by
  unfold HMap.shrink
  by_cases h1 : h.n = 1
  · have h1' : h.abs.n = 1 := h1
    simp only [if_pos h1, if_pos h1']
    have hl : h.abs.lists.getLast? = (h.labelMap h.gen).getLast?.map (fun p => (p.1, h.ell p.2)) := getLast?_deref _ _
    cases hq : (h.labelMap h.gen).getLast? with
    | none =>
      rw [hq] at hl
      simp only [hl, Option.map_none]
      exact ⟨w.lazyInit, abs_lazyInit _⟩
    | some p =>
      rw [hq] at hl
      simp only [hl, Option.map_some]
      refine ⟨(w.fields _ h.n).lazyInit, ?_⟩
      rw [abs_lazyInit]; rfl
  · have h1' : ¬ h.abs.n = 1 := h1
    simp only [if_neg h1, if_neg h1']
    exact ⟨w, trivial⟩

theorem dropEmpty_abs {h : HMap} (w : h.Wf) {lbl : String} {a : Nat} (hg : AMap.get (h.labelMap h.gen) lbl = some a) :
    (h.dropEmpty lbl a).Wf ∧ (h.dropEmpty lbl a).abs =
      if (h.ell a).n = 0 then { h.abs with lists := AMap.del h.abs.lists lbl } else h.abs := by
  unfold HMap.dropEmpty
  split
  · constructor
    · constructor
      · intro g; simp only [upd_apply]; split
        · rename_i hh; subst hh; rw [values_del (w.nodup _) (w.keys _) hg, w.vals]
        · exact w.vals g
      · intro g; simp only [upd_apply]; split
        · exact AMap.nodup_del (w.keys _) _
        · exact w.keys g
      · intro g; simp only [upd_apply]; split
        · exact (w.ord _).filter _
        · exact w.ord g
      · intro g b; simp only [upd_apply]; split
        · intro hb; exact w.lt _ b (List.mem_filter.1 hb).1
        · exact w.lt g b
      · intro g hgn b
        simp only [upd_apply, if_neg hgn, if_true]
        intro hb hc
        exact w.sep g hgn b hb (List.mem_filter.1 hc).1
    · simp only [abs, upd_same, deref_del]
  · exact ⟨w, rfl⟩

theorem remove_abs {P : Slot} {label : Nat → String} {h : HMap} (w : h.Wf) (e : Nat) :
    (h.remove P label e).2.Wf ∧ (h.remove P label e).1 = (h.abs.remove P label e).1 ∧
      (h.remove P label e).2.abs = (h.abs.remove P label e).2 := by
  unfold HMap.remove EdgeMap.remove
  by_cases h0 : h.n = 0
  · have : h.abs.n = 0 := h0
    simp only [h0, this, if_true]
    exact ⟨w, trivial, trivial⟩
  · have h0' : ¬ h.abs.n = 0 := h0
    simp only [if_neg h0, if_neg h0']
    by_cases h1 : h.n = 1
    · have h1' : h.abs.n = 1 := h1
      simp only [if_pos h1, if_pos h1']
      by_cases ho : some e ≠ h.only
      · have : some e ≠ h.abs.only := ho
        simp only [if_pos ho, if_pos this]
        exact ⟨w, trivial, trivial⟩
      · have : ¬ some e ≠ h.abs.only := ho
        simp only [if_neg ho, if_neg this]
        exact ⟨w.fields _ _, trivial, rfl⟩
    · have h1' : ¬ h.abs.n = 1 := h1
      simp only [if_neg h1, if_neg h1']
      have hget : AMap.get h.abs.lists (label e) = (AMap.get (h.labelMap h.gen) (label e)).map h.ell := get_deref _ _ _
      cases hg : AMap.get (h.labelMap h.gen) (label e) with
      | none =>
        rw [hg] at hget
        simp only [hget, Option.map_none]
        exact ⟨w, trivial, trivial⟩
      | some a =>
        rw [hg] at hget
        simp only [hget, Option.map_some]
        obtain ⟨r, hr⟩ : ∃ r, EList.remove P (h.ell a) e = r := ⟨_, rfl⟩
        simp only [hr]
        have w1 : Wf { h with ell := upd h.ell a r.2 } := ⟨w.vals, w.keys, w.ord, w.lt, w.sep⟩
        have hg1 : AMap.get (({ h with ell := upd h.ell a r.2 } : HMap).labelMap h.gen) (label e) = some a := hg
        obtain ⟨w2, e2⟩ := dropEmpty_abs w1 hg1
        have ha1 : ({ h with ell := upd h.ell a r.2 } : HMap).abs = { h.abs with lists := AMap.set h.abs.lists (label e) r.2 } := by
          simp only [abs]; rw [deref_upd (w.nodup _) hg]
        have hdel : AMap.del (AMap.set h.abs.lists (label e) r.2) (label e) = AMap.del h.abs.lists (label e) := by
          have hgen : ∀ (m : AMap String EList) k v, AMap.del (AMap.set m k v) k = AMap.del m k := by
            intro m k v
            induction m with
            | nil => simp [AMap.set, AMap.del]
            | cons p m ih =>
              obtain ⟨k0, v0⟩ := p
              by_cases hk : k0 = k
              · simp [AMap.set, AMap.del, hk]
              · simp [AMap.set, AMap.del, hk, ih]
          exact hgen _ _ _
        obtain ⟨h2, hh2⟩ : ∃ h2, ({ h with ell := upd h.ell a r.2 } : HMap).dropEmpty (label e) a = h2 := ⟨_, rfl⟩
        rw [hh2] at w2 e2 ⊢
        obtain ⟨w3, e3⟩ := shrink_abs (w2.fields h2.only (h2.n - 1))
        refine ⟨w3, trivial, ?_⟩
        have e4 : ({ h2 with only := h2.only, n := h2.n - 1 } : HMap).abs = { h2.abs with n := h2.abs.n - 1 } := rfl
        rw [show ({ h2 with n := h2.n - 1 } : HMap) = { h2 with only := h2.only, n := h2.n - 1 } from rfl, e3, e4, e2, ha1]
        simp only [upd_same]
        by_cases hz : r.2.n = 0
        · simp only [if_pos hz, hdel]; rfl
        · simp only [if_neg hz]; rfl

theorem enum_abs {P : Slot} {fuel : Nat} {h : HMap} (w : h.Wf) : h.enum P fuel = h.abs.enum P fuel := by
  unfold HMap.enum EdgeMap.enum
  by_cases h0 : h.n = 0
  · have : h.abs.n = 0 := h0
    simp [h0, this]
  · have h0' : ¬ h.abs.n = 0 := h0
    by_cases h1 : h.n = 1
    · have h1' : h.abs.n = 1 := h1
      simp only [if_pos h1, if_pos h1', if_neg h0, if_neg h0']; rfl
    · have h1' : ¬ h.abs.n = 1 := h1
      simp only [if_neg h1, if_neg h1', if_neg h0, if_neg h0']
      rw [← w.vals]
      simp [abs, deref, List.map_map, Function.comp_def]

end HMap
end LPG
