import Verif.Proofs.World
/-! Nothing in the graph depends on the numbers that are its ids: the operations commute with an injective renaming of
the ids. Here: lists, edge maps, label map and indexes. -/
namespace LPG

/-- Both calls panic, or both return and the results are related. -/
inductive ORel {α β : Type} (R : α → β → Prop) : Option α → Option β → Prop
  | none : ORel R none none
  | some {a : α} {b : β} : R a b → ORel R (some a) (some b)

theorem ORel.of_eq {α β : Type} {R : α → β → Prop} {f : α → β} (h : ∀ a, R a (f a)) {x : Option α} {y : Option β}
    (e : y = x.map f) : ORel R x y := by
  subst e
  cases x with
  | none => exact .none
  | some a => exact .some (h a)

/-! ## Association lists -/

section maps
variable {α β γ : Type} [DecidableEq α]

/-- the values of a map renamed -/
def renV (f : β → γ) (m : AMap α β) : AMap α γ := m.map (fun p => (p.1, f p.2))

/-- the keys and the values of a map renamed -/
def renKV (ρ : Nat → Nat) (f : β → γ) (m : AMap Nat β) : AMap Nat γ := m.map (fun p => (ρ p.1, f p.2))

theorem get_renV (f : β → γ) (m : AMap α β) (k : α) : AMap.get (renV f m) k = (AMap.get m k).map f := by
  induction m with
  | nil => rfl
  | cons p m ih =>
    simp only [renV, List.map_cons, AMap.get] at ih ⊢
    split
    · rfl
    · exact ih

theorem set_renV (f : β → γ) (m : AMap α β) (k : α) (v : β) : AMap.set (renV f m) k (f v) = renV f (AMap.set m k v) := by
  induction m with
  | nil => rfl
  | cons p m ih =>
    simp only [renV, List.map_cons, AMap.set] at ih ⊢
    split
    · rfl
    · simp only [List.map_cons, ih]

theorem del_renV (f : β → γ) (m : AMap α β) (k : α) : AMap.del (renV f m) k = renV f (AMap.del m k) := by
  induction m with
  | nil => rfl
  | cons p m ih =>
    simp only [renV, List.map_cons, AMap.del] at ih ⊢
    split
    · exact ih
    · simp only [List.map_cons, ih]

theorem length_renV (f : β → γ) (m : AMap α β) : (renV f m).length = m.length := List.length_map _

variable {ρ : Nat → Nat} (hρ : Function.Injective ρ)
include hρ

theorem get_renKV (f : β → γ) (m : AMap Nat β) (k : Nat) : AMap.get (renKV ρ f m) (ρ k) = (AMap.get m k).map f := by
  induction m with
  | nil => rfl
  | cons p m ih =>
    simp only [renKV, List.map_cons, AMap.get, hρ.eq_iff] at ih ⊢
    split
    · rfl
    · exact ih

theorem del_renKV (f : β → γ) (m : AMap Nat β) (k : Nat) : AMap.del (renKV ρ f m) (ρ k) = renKV ρ f (AMap.del m k) := by
  induction m with
  | nil => rfl
  | cons p m ih =>
    simp only [renKV, List.map_cons, AMap.del, hρ.eq_iff] at ih ⊢
    split
    · exact ih
    · simp only [List.map_cons, ih]

omit hρ in
theorem length_renKV (f : β → γ) (m : AMap Nat β) : (renKV ρ f m).length = m.length := List.length_map _

theorem add_renKV (f : β → γ) (m : FSet β) (k : Nat) (v : β) :
    FSet.add (renKV ρ f m) (ρ k) (f v) = renKV ρ f (FSet.add m k v) := by
  unfold FSet.add
  rw [get_renKV hρ]
  cases AMap.get m k with
  | none => simp [renKV]
  | some _ => rfl

theorem remove_renKV (f : β → γ) (m : FSet β) (k : Nat) :
    FSet.remove (renKV ρ f m) (ρ k) = renKV ρ f (FSet.remove m k) := del_renKV hρ f m k

omit hρ in
theorem items_renKV (f : β → γ) (m : FSet β) : FSet.items (renKV ρ f m) = (FSet.items m).map f := by
  simp [FSet.items, renKV]

end maps

/-! ## Lists -/

def Elem.ren (ρ : Nat → Nat) (x : Elem) : Elem := ⟨x.next.map ρ, x.prev.map ρ⟩
def EList.ren (ρ : Nat → Nat) (l : EList) : EList := ⟨l.head.map ρ, l.tail.map ρ, l.n⟩
def NList.ren (ρ : Nat → Nat) (l : NList) : NList := ⟨l.head.map ρ, l.tail.map ρ, l.n⟩
def EdgeMap.ren (ρ : Nat → Nat) (m : EdgeMap) : EdgeMap := ⟨renV (EList.ren ρ) m.lists, m.only.map ρ, m.n⟩

/-- the links of the edges in `E` -/
def SlotRen (E : Nat → Prop) (ρ : Nat → Nat) (P P' : Slot) : Prop := ∀ e, E (ρ e) → P' (ρ e) = (P e).ren ρ

/-- a field of the objects in `N` -/
def FieldRen {α β : Type} (N : Nat → Prop) (ρ : Nat → Nat) (f : α → β) (a : Nat → α) (b : Nat → β) : Prop :=
  ∀ x, N (ρ x) → b (ρ x) = f (a x)

variable {N E : Nat → Prop} {ρ : Nat → Nat} (hρ : Function.Injective ρ)

include hρ in
theorem FieldRen.upd {α β : Type} {f : α → β} {a : Nat → α} {b : Nat → β} (h : FieldRen N ρ f a b) {x : Nat} {v : α} {w : β}
    (hv : N (ρ x) → w = f v) : FieldRen N ρ f (upd a x v) (upd b (ρ x) w) := by
  intro y hy
  by_cases hyx : y = x
  · subst hyx; rw [upd_same, upd_same]; exact hv hy
  · rw [upd_other _ _ hyx, upd_other _ _ (fun e => hyx (hρ e))]; exact h y hy

/-- A new object: its field is set in both states. -/
theorem FieldRen.fresh {α β : Type} {f : α → β} {a : Nat → α} {b : Nat → β} (hρ : Function.Injective ρ)
    (h : FieldRen N ρ f a b) (x : Nat) (v : α) :
    FieldRen (fun y => N y ∨ y = ρ x) ρ f (LPG.upd a x v) (LPG.upd b (ρ x) (f v)) := by
  intro y hy
  by_cases hyx : y = x
  · subst hyx; rw [upd_same, upd_same]
  · rw [upd_other _ _ hyx, upd_other _ _ (fun e => hyx (hρ e))]
    exact h y (hy.resolve_right (fun e => hyx (hρ e)))

include hρ in
theorem SlotRen.upd {P P' : Slot} (h : SlotRen E ρ P P') {x : Nat} {v w : Elem} (hv : E (ρ x) → w = v.ren ρ) :
    SlotRen E ρ (LPG.upd P x v) (LPG.upd P' (ρ x) w) := FieldRen.upd hρ h hv

include hρ in
theorem EList.add_ren {P P' : Slot} (h : SlotRen E ρ P P') (l : EList) (e : Nat) :
    SlotRen E ρ (l.add P e).1 ((l.ren ρ).add P' (ρ e)).1 ∧ ((l.ren ρ).add P' (ρ e)).2 = (l.add P e).2.ren ρ := by
  have h1 : SlotRen E ρ (LPG.upd P e { P e with prev := l.tail }) (LPG.upd P' (ρ e) { P' (ρ e) with prev := l.tail.map ρ }) :=
    h.upd hρ (fun he => by rw [h e he]; rfl)
  unfold EList.add EList.ren
  cases ht : l.tail with
  | none =>
    simp only [ht, Option.map_none] at h1 ⊢
    refine ⟨h1.upd hρ (fun he => by rw [h1 e he]; rfl), ?_⟩
    cases l.head <;> rfl
  | some t =>
    simp only [ht, Option.map_some] at h1 ⊢
    have h2 : SlotRen E ρ (LPG.upd (LPG.upd P e { P e with prev := some t }) t
        { (LPG.upd P e { P e with prev := some t }) t with next := some e })
        (LPG.upd (LPG.upd P' (ρ e) { P' (ρ e) with prev := some (ρ t) }) (ρ t)
        { (LPG.upd P' (ρ e) { P' (ρ e) with prev := some (ρ t) }) (ρ t) with next := some (ρ e) }) :=
      h1.upd hρ (fun ht => by rw [h1 t ht]; rfl)
    refine ⟨h2.upd hρ (fun he => by rw [h2 e he]; rfl), ?_⟩
    cases l.head <;> rfl

include hρ in
theorem EList.remove_ren {P P' : Slot} (h : SlotRen E ρ P P') (l : EList) {e : Nat} (he : E (ρ e)) :
    SlotRen E ρ (l.remove P e).1 ((l.ren ρ).remove P' (ρ e)).1 ∧ ((l.ren ρ).remove P' (ρ e)).2 = (l.remove P e).2.ren ρ := by
  have second : ∀ (Q Q' : Slot) (a b : Option Nat) (n : Int), SlotRen E ρ Q Q' →
      let r := (match (Q e).next with
        | some x => (LPG.upd Q x { Q x with prev := (Q e).prev }, ({ head := a, tail := b, n := n } : EList))
        | none => (Q, { head := a, tail := (Q e).prev, n := n }))
      let r' := (match (Q' (ρ e)).next with
        | some x => (LPG.upd Q' x { Q' x with prev := (Q' (ρ e)).prev }, ({ head := a.map ρ, tail := b.map ρ, n := n } : EList))
        | none => (Q', { head := a.map ρ, tail := (Q' (ρ e)).prev, n := n }))
      SlotRen E ρ (LPG.upd r.1 e ⟨none, none⟩) (LPG.upd r'.1 (ρ e) ⟨none, none⟩) ∧
        ({ r'.2 with n := r'.2.n - 1 } : EList) = ({ r.2 with n := r.2.n - 1 } : EList).ren ρ := by
    intro Q Q' a b n hQ
    rw [hQ e he]
    cases hn : (Q e).next with
    | none =>
      simp only [Elem.ren, hn, Option.map_none]
      exact ⟨hQ.upd hρ (fun _ => rfl), rfl⟩
    | some x =>
      simp only [Elem.ren, hn, Option.map_some]
      exact ⟨(hQ.upd hρ (fun hx => by rw [hQ x hx]; rfl)).upd hρ (fun _ => rfl), rfl⟩
  unfold EList.remove EList.ren
  rw [h e he]
  cases hp : (P e).prev with
  | none =>
    have := second P P' (P e).next l.tail l.n h
    simp only [hp] at this
    simp only [Elem.ren, hp, Option.map_none]
    exact this
  | some p =>
    simp only [Elem.ren, hp, Option.map_some]
    exact second (LPG.upd P p { P p with next := (P e).next }) _ l.head l.tail l.n
      (h.upd hρ (fun hx => by rw [h p hx]; rfl))

theorem walk_ren {next next' : Nat → Option Nat} (hn : ∀ x, E (ρ x) → next' (ρ x) = (next x).map ρ)
    (hc : ∀ x, E x → PIn E (next' x)) : ∀ (f : Nat) (o : Option Nat), PIn E (o.map ρ) →
    walk next' f (o.map ρ) = (walk next f o).map (List.map ρ)
  | f, none, _ => by rw [Option.map_none, walk_none, walk_none]; rfl
  | 0, some _, _ => rfl
  | f + 1, some x, ho => by
    have hx : E (ρ x) := ho _ rfl
    have := hc _ hx
    rw [hn x hx] at this
    rw [Option.map_some, walk_succ, walk_succ, hn x hx, walk_ren hn hc f _ this]
    cases walk next f (next x) <;> rfl

/-- The elements of the renamed side are below its bound, those of the other side below the other one. -/
theorem walk_ren_fuel {next next' : Nat → Option Nat} (hn : ∀ x, E (ρ x) → next' (ρ x) = (next x).map ρ)
    (hc : ∀ x, E x → PIn E (next' x)) {b b' f f' : Nat} (hb : ∀ x, E (ρ x) → x < b) (hb' : ∀ x, E x → x < b')
    (h1 : b ≤ f) (h2 : b' ≤ f') (o : Option Nat) (ho : PIn E (o.map ρ)) :
    walk next' f' (o.map ρ) = (walk next f o).map (List.map ρ) := by
  have c' : ∀ x, E (ρ x) → PIn (fun x => E (ρ x)) (next x) := by
    intro x hx y hy
    have := hc _ hx
    rw [hn x hx, hy] at this
    exact this _ rfl
  have o' : PIn (fun x => E (ρ x)) o := fun y hy => ho _ (by rw [hy]; rfl)
  rw [walk_fuel hc ho hb' h2 (Nat.le_max_left b' b), walk_fuel c' o' hb h1 (Nat.le_max_right b' b)]
  exact walk_ren hn hc _ o ho

/-! ## Edge maps -/

include hρ in
theorem EdgeMap.doAdd_ren {P P' : Slot} (h : SlotRen E ρ P P') (m : EdgeMap) (l : String) (e : Nat) :
    SlotRen E ρ (m.doAdd P l e).1 ((m.ren ρ).doAdd P' l (ρ e)).1 ∧ ((m.ren ρ).doAdd P' l (ρ e)).2 = (m.doAdd P l e).2.ren ρ := by
  unfold EdgeMap.doAdd EdgeMap.ren
  simp only [get_renV]
  cases m.lists.get l with
  | none =>
    obtain ⟨h1, h2⟩ := EList.add_ren hρ h { head := none, tail := none, n := 0 } e
    have e0 : ({ head := none, tail := none, n := 0 } : EList).ren ρ = { head := none, tail := none, n := 0 } := rfl
    rw [e0] at h1 h2
    simp only [Option.map_none]
    exact ⟨h1, by rw [h2, set_renV]⟩
  | some l =>
    obtain ⟨h1, h2⟩ := EList.add_ren hρ h l e
    simp only [Option.map_some]
    exact ⟨h1, by rw [h2, set_renV]⟩

/-- the labels of the edges -/
abbrev LabelRen (E : Nat → Prop) (ρ : Nat → Nat) (f f' : Nat → String) : Prop := FieldRen E ρ id f f'

include hρ in
theorem EdgeMap.add_ren {P P' : Slot} {f f' : Nat → String} (h : SlotRen E ρ P P') (hf : LabelRen E ρ f f') (m : EdgeMap)
    (hm : PIn E (m.only.map ρ)) {e : Nat} (he : E (ρ e)) :
    ORel (fun a b => SlotRen E ρ a.1 b.1 ∧ b.2 = a.2.ren ρ) (m.add P f e) ((m.ren ρ).add P' f' (ρ e)) := by
  unfold EdgeMap.add
  have hn : (m.ren ρ).n = m.n := rfl
  rw [hn]
  split
  · exact .some ⟨h, rfl⟩
  · split
    · cases ho : m.only with
      | none => simp only [EdgeMap.ren, ho, Option.map_none]; exact .none
      | some o =>
        have hoE : E (ρ o) := hm _ (by rw [ho]; rfl)
        simp only [EdgeMap.ren, ho, Option.map_some]
        have l1 : f' (ρ o) = f o := hf o hoE
        have l2 : f' (ρ e) = f e := hf e he
        rw [l1, l2]
        obtain ⟨a1, a2⟩ := EdgeMap.doAdd_ren hρ h { m with lists := [], only := some o } (f o) o
        have e0 : ({ m with lists := [], only := some o } : EdgeMap).ren ρ = { lists := [], only := some (ρ o), n := m.n } := rfl
        rw [e0] at a1 a2
        have e1 : ({ m with lists := [] } : EdgeMap) = { m with lists := [], only := some o } := by rw [← ho]
        obtain ⟨b1, b2⟩ := EdgeMap.doAdd_ren hρ a1 { (EdgeMap.doAdd P { m with lists := [], only := some o } (f o) o).2 with only := none } (f e) e
        refine .some ⟨?_, ?_⟩
        · simp only [a2]; exact b1
        · simp only [a2]
          have := b2
          simp only [EdgeMap.ren, Option.map_none] at this ⊢
          rw [this]
    · have l2 : f' (ρ e) = f e := hf e he
      rw [l2]
      obtain ⟨a1, a2⟩ := EdgeMap.doAdd_ren hρ h m (f e) e
      refine .some ⟨a1, ?_⟩
      have e1 : (EdgeMap.doAdd P' (m.ren ρ) (f e) (ρ e)).2.lists = renV (EList.ren ρ) (EdgeMap.doAdd P m (f e) e).2.lists := by
        rw [a2]; rfl
      have e2 : (EdgeMap.doAdd P' (m.ren ρ) (f e) (ρ e)).2.only = (EdgeMap.doAdd P m (f e) e).2.only.map ρ := by
        rw [a2]; rfl
      have e3 : (EdgeMap.doAdd P' (m.ren ρ) (f e) (ρ e)).2.n = (EdgeMap.doAdd P m (f e) e).2.n := by
        rw [a2]; rfl
      show EdgeMap.mk (EdgeMap.doAdd P' (m.ren ρ) (f e) (ρ e)).2.lists (EdgeMap.doAdd P' (m.ren ρ) (f e) (ρ e)).2.only
        ((EdgeMap.doAdd P' (m.ren ρ) (f e) (ρ e)).2.n + 1) = _
      rw [e1, e2, e3]
      rfl

theorem ren_only_ne (hρ : Function.Injective ρ) {e : Nat} {o : Option Nat} : (some (ρ e) ≠ o.map ρ) ↔ some e ≠ o := by
  cases o with
  | none => simp
  | some x => simp [hρ.eq_iff]

include hρ in
theorem EdgeMap.remove_ren {P P' : Slot} {f f' : Nat → String} (h : SlotRen E ρ P P') (hf : LabelRen E ρ f f') (m : EdgeMap)
    {e : Nat} (he : E (ρ e)) :
    SlotRen E ρ (m.remove P f e).1 ((m.ren ρ).remove P' f' (ρ e)).1 ∧
      ((m.ren ρ).remove P' f' (ρ e)).2 = (m.remove P f e).2.ren ρ := by
  unfold EdgeMap.remove
  have l2 : f' (ρ e) = f e := hf e he
  simp only [EdgeMap.ren, l2, get_renV, ren_only_ne hρ]
  by_cases h0 : m.n = 0
  · rw [if_pos h0, if_pos h0]; exact ⟨h, rfl⟩
  · rw [if_neg h0, if_neg h0]
    by_cases h1 : m.n = 1
    · rw [if_pos h1, if_pos h1]
      split
      · exact ⟨h, rfl⟩
      · exact ⟨h, rfl⟩
    · rw [if_neg h1, if_neg h1]
      cases hg : m.lists.get (f e) with
      | none => exact ⟨h, rfl⟩
      | some l =>
        obtain ⟨a1, a2⟩ := EList.remove_ren hρ h l he
        simp only [Option.map_some]
        refine ⟨a1, ?_⟩
        rw [a2]
        have hn : ((l.remove P e).2.ren ρ).n = (l.remove P e).2.n := rfl
        rw [hn]
        have last : ∀ (L : AMap String EList), (renV (EList.ren ρ) L).getLast? = L.getLast?.map (fun p => (p.1, p.2.ren ρ)) := by
          intro L; exact List.getLast?_map
        by_cases hz : (l.remove P e).2.n = 0
        · simp only [if_pos hz, del_renV]
          split
          · rw [last]
            cases (AMap.del m.lists (f e)).getLast? <;> rfl
          · rfl
        · simp only [if_neg hz, set_renV]
          split
          · rw [last]
            cases (AMap.set m.lists (f e) (l.remove P e).2).getLast? <;> rfl
          · rfl

theorem concatOpt_ren {α : Type} (xs : List α) {a b : α → Option (List Nat)} (h : ∀ x ∈ xs, b x = (a x).map (List.map ρ)) :
    concatOpt (xs.map b) = (concatOpt (xs.map a)).map (List.map ρ) := by
  induction xs with
  | nil => rfl
  | cons x xs ih =>
    have := ih (fun y hy => h y (by simp [hy]))
    simp only [List.map_cons, h x (by simp)]
    cases a x with
    | none => rfl
    | some l =>
      simp only [Option.map_some, concatOpt, this]
      cases concatOpt (xs.map a) <;> simp

section enums
variable {P P' : Slot} {b b' F F' : Nat} {f f' : Nat → String} (h : SlotRen E ρ P P') (hP : SlotIn E P')
  (hb : ∀ x, E (ρ x) → x < b) (hb' : ∀ x, E x → x < b') (h1 : b ≤ F) (h2 : b' ≤ F') {m : EdgeMap} (hm : EMIn E (m.ren ρ))
include h hP hb hb' h1 h2

theorem slot_walk {o : Option Nat} (ho : PIn E (o.map ρ)) : walk (fun x => (P' x).next) F' (o.map ρ) =
    (walk (fun x => (P x).next) F o).map (List.map ρ) :=
  walk_ren_fuel (fun x hx => by rw [h x hx]; rfl) (fun x hx => (hP x hx).1) hb hb' h1 h2 o ho

include hm

theorem list_walk {l : String} {el : EList} (hl : (l, el) ∈ m.lists) : walk (fun x => (P' x).next) F' (el.head.map ρ) =
    (walk (fun x => (P x).next) F el.head).map (List.map ρ) :=
  slot_walk h hP hb hb' h1 h2 (hm.2 l (el.ren ρ) (List.mem_map.2 ⟨(l, el), hl, rfl⟩)).1

theorem EdgeMap.enum_ren : (m.ren ρ).enum P' F' = (m.enum P F).map (List.map ρ) := by
  unfold EdgeMap.enum
  have hn : (m.ren ρ).n = m.n := rfl
  rw [hn]
  split
  · rfl
  · split
    · simp only [EdgeMap.ren]; cases m.only <;> rfl
    · simp only [EdgeMap.ren, renV, List.map_map]
      exact concatOpt_ren _ (fun p hp => list_walk h hP hb hb' h1 h2 hm hp)

theorem EdgeMap.enumLabel_ren (hf : LabelRen E ρ f f') (l : String) :
    (m.ren ρ).enumLabel P' f' F' l = (m.enumLabel P f F l).map (List.map ρ) := by
  have byMap : (match (m.ren ρ).lists.get l with
      | none => some []
      | some el => walk (fun x => (P' x).next) F' el.head) = (match m.lists.get l with
      | none => some []
      | some el => walk (fun x => (P x).next) F el.head).map (List.map ρ) := by
    simp only [EdgeMap.ren, get_renV]
    cases hg : m.lists.get l with
    | none => rfl
    | some el => exact list_walk h hP hb hb' h1 h2 hm (AMap.mem_of_get hg)
  unfold EdgeMap.enumLabel
  have hn : (m.ren ρ).n = m.n := rfl
  dsimp only
  rw [hn]
  by_cases h0 : m.n = 0
  · rw [if_pos h0, if_pos h0]; rfl
  · rw [if_neg h0, if_neg h0]
    by_cases h1 : m.n = 1
    · rw [if_pos h1, if_pos h1]
      have ho := hm.1
      cases hoo : m.only with
      | none => simp only [EdgeMap.ren, hoo]; rfl
      | some o =>
        simp only [EdgeMap.ren, hoo] at ho ⊢
        have : f' (ρ o) = f o := hf o (ho _ rfl)
        simp only [Option.map_some, this]
        by_cases hl : l = f o
        · rw [if_pos hl, if_pos hl]; rfl
        · rw [if_neg hl, if_neg hl]; exact byMap
    · rw [if_neg h1, if_neg h1]; exact byMap

theorem EdgeMap.enumAny_ren (hf : LabelRen E ρ f f') (ls : List String) :
    (m.ren ρ).enumAny P' f' F' ls = (m.enumAny P f F ls).map (List.map ρ) := by
  unfold EdgeMap.enumAny
  have hn : (m.ren ρ).n = m.n := rfl
  have hs : ∀ l, ((m.ren ρ).lists.get l).isSome = (m.lists.get l).isSome := by
    intro l; simp [EdgeMap.ren, get_renV]
  simp only [hn, hs]
  split
  · rfl
  · split
    · have ho := hm.1
      simp only [EdgeMap.ren] at ho ⊢
      cases hoo : m.only with
      | none => rfl
      | some o =>
        rw [hoo] at ho
        have : f' (ρ o) = f o := hf o (ho _ rfl)
        simp only [Option.map_some, this]
        split <;> rfl
    · exact concatOpt_ren _ (fun l _ => EdgeMap.enumLabel_ren h hP hb hb' h1 h2 hm hf l)

omit h hP hb hb' h1 h2 in
theorem EdgeMap.anySize_ren (hf : LabelRen E ρ f f') (ls : List String) :
    (m.ren ρ).anySize f' ls = m.anySize f ls := by
  unfold EdgeMap.anySize
  have hn : (m.ren ρ).n = m.n := rfl
  rw [hn]
  split
  · rfl
  · split
    · have ho := hm.1
      simp only [EdgeMap.ren] at ho ⊢
      cases hoo : m.only with
      | none => rfl
      | some o =>
        rw [hoo] at ho
        have : f' (ρ o) = f o := hf o (ho _ rfl)
        simp only [Option.map_some, this]
    · rfl

end enums

/-! ## Node lists -/

include hρ in
theorem NList.add_ren {p p' : NPtr} (h1 : FieldRen N ρ (Option.map ρ) p.next p'.next) (h2 : FieldRen N ρ (Option.map ρ) p.prev p'.prev)
    (l : NList) (x : Nat) :
    FieldRen N ρ (Option.map ρ) (l.add p x).1.next ((l.ren ρ).add p' (ρ x)).1.next ∧
    FieldRen N ρ (Option.map ρ) (l.add p x).1.prev ((l.ren ρ).add p' (ρ x)).1.prev ∧
    ((l.ren ρ).add p' (ρ x)).2 = (l.add p x).2.ren ρ := by
  unfold NList.add NList.ren
  cases ht : l.tail with
  | none =>
    simp only [Option.map_none]
    refine ⟨h1, h2.upd hρ (fun _ => rfl), ?_⟩
    cases l.head <;> rfl
  | some t =>
    simp only [Option.map_some]
    refine ⟨h1.upd hρ (fun _ => rfl), h2.upd hρ (fun _ => rfl), ?_⟩
    cases l.head <;> rfl

include hρ in
theorem NList.remove_ren {p p' : NPtr} (h1 : FieldRen N ρ (Option.map ρ) p.next p'.next) (h2 : FieldRen N ρ (Option.map ρ) p.prev p'.prev)
    (l : NList) {x : Nat} (hx : N (ρ x)) :
    FieldRen N ρ (Option.map ρ) (l.remove p x).1.next ((l.ren ρ).remove p' (ρ x)).1.next ∧
    FieldRen N ρ (Option.map ρ) (l.remove p x).1.prev ((l.ren ρ).remove p' (ρ x)).1.prev ∧
    ((l.ren ρ).remove p' (ρ x)).2 = (l.remove p x).2.ren ρ := by
  have second : ∀ (Q Q' : NPtr) (a : Option Nat) (n : Int), FieldRen N ρ (Option.map ρ) Q.next Q'.next →
      FieldRen N ρ (Option.map ρ) Q.prev Q'.prev →
      let r := (match Q.next x with
        | some y => (({ Q with prev := upd Q.prev y (Q.prev x) } : NPtr), ({ head := a, tail := l.tail, n := n } : NList))
        | none => (Q, { head := a, tail := some x, n := n }))
      let r' := (match Q'.next (ρ x) with
        | some y => (({ Q' with prev := upd Q'.prev y (Q'.prev (ρ x)) } : NPtr), ({ head := a.map ρ, tail := l.tail.map ρ, n := n } : NList))
        | none => (Q', { head := a.map ρ, tail := some (ρ x), n := n }))
      FieldRen N ρ (Option.map ρ) r.1.next r'.1.next ∧ FieldRen N ρ (Option.map ρ) r.1.prev r'.1.prev ∧
        ({ r'.2 with n := r'.2.n - 1 } : NList) = ({ r.2 with n := r.2.n - 1 } : NList).ren ρ := by
    intro Q Q' a n q1 q2
    rw [q1 x hx, q2 x hx]
    cases hn : Q.next x with
    | none => exact ⟨q1, q2, rfl⟩
    | some y => exact ⟨q1, q2.upd hρ (fun _ => rfl), rfl⟩
  unfold NList.remove NList.ren
  rw [h2 x hx, h1 x hx]
  cases hp : p.prev x with
  | none => exact second p p' (p.next x) l.n h1 h2
  | some q => exact second { p with next := upd p.next q (p.next x) } _ l.head l.n (h1.upd hρ (fun _ => rfl)) h2

/-! ## The label map -/

/-- ids and items of a set renamed -/
abbrev FSet.ren (ρ : Nat → Nat) (s : FSet Nat) : FSet Nat := renKV ρ ρ s

def NodeMap.ren (ρ : Nat → Nat) (nm : NodeMap) : NodeMap := ⟨renV (FSet.ren ρ) nm.m, FSet.ren ρ nm.nolabels⟩

include hρ in
theorem NodeMap.addTo_ren (nm : NodeMap) (n : Nat) (l : String) : (nm.ren ρ).addTo (ρ n) l = (nm.addTo n l).ren ρ := by
  unfold NodeMap.addTo NodeMap.ren
  simp only [get_renV]
  cases nm.m.get l with
  | none =>
    have := add_renKV hρ ρ [] n n
    simp only [Option.map_none]
    rw [← set_renV]
    exact congrArg (fun x => NodeMap.mk (AMap.set (renV (FSet.ren ρ) nm.m) l x) (FSet.ren ρ nm.nolabels)) this
  | some s =>
    have := add_renKV hρ ρ s n n
    simp only [Option.map_some]
    rw [← set_renV]
    exact congrArg (fun x => NodeMap.mk (AMap.set (renV (FSet.ren ρ) nm.m) l x) (FSet.ren ρ nm.nolabels)) this

include hρ in
theorem NodeMap.removeFrom_ren (nm : NodeMap) (n : Nat) (l : String) :
    (nm.ren ρ).removeFrom (ρ n) l = (nm.removeFrom n l).ren ρ := by
  unfold NodeMap.removeFrom NodeMap.ren
  simp only [get_renV]
  cases nm.m.get l with
  | none => rfl
  | some s =>
    have := remove_renKV hρ ρ s n
    simp only [Option.map_some]
    rw [this, length_renKV]
    split
    · simp only [del_renV]
    · simp only [set_renV]

include hρ in
theorem NodeMap.foldAdd_ren (n : Nat) : ∀ (ls : List String) (nm : NodeMap),
    ls.foldl (fun nm l => nm.addTo (ρ n) l) (nm.ren ρ) = (ls.foldl (fun nm l => nm.addTo n l) nm).ren ρ
  | [], _ => rfl
  | l :: ls, nm => by
    simp only [List.foldl_cons]
    rw [NodeMap.addTo_ren hρ, NodeMap.foldAdd_ren n ls]

include hρ in
theorem NodeMap.foldRemove_ren (n : Nat) : ∀ (ls : List String) (nm : NodeMap),
    ls.foldl (fun nm l => nm.removeFrom (ρ n) l) (nm.ren ρ) = (ls.foldl (fun nm l => nm.removeFrom n l) nm).ren ρ
  | [], _ => rfl
  | l :: ls, nm => by
    simp only [List.foldl_cons]
    rw [NodeMap.removeFrom_ren hρ, NodeMap.foldRemove_ren n ls]

include hρ in
theorem NodeMap.add_ren (nm : NodeMap) (n : Nat) (ls : List String) : (nm.ren ρ).add (ρ n) ls = (nm.add n ls).ren ρ := by
  unfold NodeMap.add
  split
  · simp only [NodeMap.ren, add_renKV hρ]
  · exact NodeMap.foldAdd_ren hρ n ls nm

include hρ in
theorem NodeMap.remove_ren (nm : NodeMap) (n : Nat) (ls : List String) : (nm.ren ρ).remove (ρ n) ls = (nm.remove n ls).ren ρ := by
  unfold NodeMap.remove
  split
  · simp only [NodeMap.ren, remove_renKV hρ]
  · exact NodeMap.foldRemove_ren hρ n ls nm

include hρ in
theorem NodeMap.replace_ren (nm : NodeMap) (n : Nat) (a b : List String) :
    (nm.ren ρ).replace (ρ n) a b = (nm.replace n a b).ren ρ := by
  unfold NodeMap.replace
  split
  · rfl
  · have h1 : (if a.length = 0 then { nm.ren ρ with nolabels := FSet.remove (nm.ren ρ).nolabels (ρ n) } else nm.ren ρ) =
        (if a.length = 0 then { nm with nolabels := FSet.remove nm.nolabels n } else nm).ren ρ := by
      split
      · simp only [NodeMap.ren, remove_renKV hρ]
      · rfl
    simp only [h1]
    split
    · simp only [NodeMap.ren, add_renKV hρ]
    · rw [NodeMap.foldRemove_ren hρ, NodeMap.foldAdd_ren hρ]

theorem NodeMap.minSet_ren (nm : NodeMap) : ∀ (ls : List String) (best : Option (FSet Nat)),
    (nm.ren ρ).minSet ls (best.map (FSet.ren ρ)) = (nm.minSet ls best).map (Option.map (FSet.ren ρ))
  | [], _ => rfl
  | l :: ls, best => by
    have hg : (nm.ren ρ).m.get l = (nm.m.get l).map (FSet.ren ρ) := get_renV _ _ _
    rw [NodeMap.minSet, NodeMap.minSet, hg]
    cases nm.m.get l with
    | none => rfl
    | some s =>
      cases best with
      | none => exact NodeMap.minSet_ren nm ls (some s)
      | some b =>
        simp only [Option.map_some, length_renKV]
        rw [← NodeMap.minSet_ren nm ls]
        split <;> rfl

/-- The nodes with all labels. -/
theorem NodeMap.allLabels_ren {nm : NodeMap} (hn : (nm.ren ρ).In N) {f f' : Nat → List String} (hf : FieldRen N ρ id f f')
    (ls : List String) : (nm.ren ρ).allLabels f' ls = (nm.allLabels f ls).map (fun r => (r.1.map ρ, r.2)) := by
  unfold NodeMap.allLabels
  have := NodeMap.minSet_ren (ρ := ρ) nm ls none
  simp only [Option.map_none] at this
  rw [this]
  cases hm : nm.minSet ls none with
  | none => rfl
  | some o =>
    cases o with
    | none => rfl
    | some s =>
      rw [hm] at this
      have hs := minSet_in hn (best := none) (by simp) this
      simp only [Option.map_some, items_renKV, length_renKV, List.filter_map]
      congr 3
      apply List.filter_congr
      intro x hx
      obtain ⟨p, hp, rfl⟩ := List.mem_map.1 hx
      have : f' (ρ p.2) = f p.2 := hf p.2 (hs (ρ p.1, ρ p.2) (List.mem_map.2 ⟨p, hp, rfl⟩))
      simp only [Function.comp, this]

/-! ## Property indexes -/

def HashIx.ren (ρ : Nat → Nat) (ix : HashIx) : HashIx :=
  ⟨ix.init, renV (renKV ρ id) ix.values, ix.elements.map (fun p => (p.1, ρ p.2)), ix.nextCell⟩

def SetTree.ren (ρ : Nat → Nat) (t : SetTree) : SetTree := t.map (fun e => (e.1, FSet.ren ρ e.2))

def Index.ren (ρ : Nat → Nat) : Index → Index
  | .btree t => .btree (SetTree.ren ρ t)
  | .hash h => .hash (h.ren ρ)

def Indexes.ren (ρ : Nat → Nat) (ixs : Indexes) : Indexes := renV (Index.ren ρ) ixs

include hρ in
theorem HashIx.add_ren (ix : HashIx) (v : Value) (x : Nat) : (ix.ren ρ).add v (ρ x) = (ix.add v x).map (HashIx.ren ρ) := by
  unfold HashIx.add
  split
  · rfl
  · rename_i k hk
    have hg : AMap.get (ix.ren ρ).values k = (AMap.get ix.values k).map (renKV ρ id) := get_renV _ _ _
    have hd : (AMap.get (ix.ren ρ).values k).getD [] = renKV ρ id ((AMap.get ix.values k).getD []) := by
      rw [hg]; cases AMap.get ix.values k <;> rfl
    simp only [hd, Option.map_some, Option.some.injEq]
    have := add_renKV hρ id ((AMap.get ix.values k).getD []) x ix.nextCell
    simp only [HashIx.ren, id] at this ⊢
    rw [this, ← set_renV]
    simp only [List.map_append, List.map_cons, List.map_nil]

include hρ in
theorem HashIx.remove_ren (ix : HashIx) (v : Value) (x : Nat) :
    (ix.ren ρ).remove v (ρ x) = (ix.remove v x).map (HashIx.ren ρ) := by
  unfold HashIx.remove
  have hi : (ix.ren ρ).init = ix.init := rfl
  rw [hi]
  split
  · rfl
  · split
    · rfl
    · rename_i k hk
      have hg : AMap.get (ix.ren ρ).values k = (AMap.get ix.values k).map (renKV ρ id) := get_renV _ _ _
      rw [hg]
      cases AMap.get ix.values k with
      | none => rfl
      | some fs =>
        simp only [Option.map_some, get_renKV hρ]
        cases AMap.get fs x with
        | none => rfl
        | some c =>
          simp only [Option.map_some, Option.some.injEq, HashIx.ren, id, remove_renKV hρ, set_renV]
          congr 1
          rw [List.filter_map]
          rfl

theorem HashIx.get_elements (m : AMap Nat Nat) (c : Nat) :
    AMap.get (m.map (fun p => (p.1, ρ p.2))) c = (AMap.get m c).map ρ := get_renV ρ m c

theorem HashIx.find_ren (ix : HashIx) (v : Value) : (ix.ren ρ).find v = (ix.find v).map (fun r => (r.1.map ρ, r.2)) := by
  unfold HashIx.find
  have hi : (ix.ren ρ).init = ix.init := rfl
  rw [hi]
  split
  · rfl
  · split
    · rfl
    · rename_i k hk
      have hg : AMap.get (ix.ren ρ).values k = (AMap.get ix.values k).map (renKV ρ id) := get_renV _ _ _
      rw [hg]
      cases AMap.get ix.values k with
      | none => rfl
      | some fs =>
        simp only [Option.map_some, items_renKV, length_renKV, Option.some.injEq, Prod.mk.injEq, and_true, List.map_id_fun, id,
          List.map_filterMap]
        congr 1
        funext c
        exact get_renV ρ ix.elements c

theorem HashIx.valueItr_ren (ix : HashIx) : (ix.ren ρ).valueItr = ix.valueItr.map ρ := by
  simp [HashIx.valueItr, HashIx.ren]

theorem SetTree.get_ren (t : SetTree) (k : Value) : SetTree.get (SetTree.ren ρ t) k = (SetTree.get t k).map (Option.map (FSet.ren ρ)) := by
  unfold SetTree.get SetTree.ren
  rw [List.any_map]
  have : ((fun e : Value × FSet Nat => (cmp k e.1).isNone) ∘ fun e : Value × FSet Nat => (e.1, FSet.ren ρ e.2)) =
      (fun e : Value × FSet Nat => (cmp k e.1).isNone) := rfl
  rw [this]
  split
  · rfl
  · rw [List.find?_map]
    simp only [Option.map_some, Option.map_map]
    rfl

theorem SetTree.put_ren (k : Value) (s : FSet Nat) : ∀ (t : SetTree),
    SetTree.put (SetTree.ren ρ t) k (FSet.ren ρ s) = SetTree.ren ρ (SetTree.put t k s)
  | [] => rfl
  | e :: t => by
    have : SetTree.ren ρ (e :: t) = (e.1, FSet.ren ρ e.2) :: SetTree.ren ρ t := rfl
    rw [this, SetTree.put, SetTree.put]
    split
    · rfl
    · rw [SetTree.put_ren k s t]; rfl

theorem SetTree.update_ren (t : SetTree) (k : Value) (s : FSet Nat) :
    SetTree.update (SetTree.ren ρ t) k (FSet.ren ρ s) = SetTree.ren ρ (SetTree.update t k s) := by
  unfold SetTree.update SetTree.ren
  rw [List.map_map, List.map_map]
  apply List.map_congr_left
  intro e _
  simp only [Function.comp]
  split <;> rfl

theorem SetTree.delete_ren (t : SetTree) (k : Value) : SetTree.delete (SetTree.ren ρ t) k = SetTree.ren ρ (SetTree.delete t k) := by
  unfold SetTree.delete SetTree.ren
  rw [List.filter_map]
  rfl

include hρ in
theorem SetTree.add_ren (t : SetTree) (v : Value) (x : Nat) : SetTree.add (SetTree.ren ρ t) v (ρ x) = (SetTree.add t v x).map (SetTree.ren ρ) := by
  unfold SetTree.add
  rw [SetTree.get_ren]
  cases SetTree.get t v with
  | none => rfl
  | some o =>
    cases o with
    | none =>
      have := add_renKV hρ ρ [] x x
      simp only [Option.map_some, Option.map_none]
      rw [← SetTree.put_ren]
      exact congrArg some (congrArg _ this)
    | some s =>
      simp only [Option.map_some, add_renKV hρ, SetTree.update_ren]

include hρ in
theorem SetTree.remove_ren (t : SetTree) (v : Value) (x : Nat) :
    SetTree.remove (SetTree.ren ρ t) v (ρ x) = (SetTree.remove t v x).map (SetTree.ren ρ) := by
  unfold SetTree.remove
  rw [SetTree.get_ren]
  cases SetTree.get t v with
  | none => rfl
  | some o =>
    cases o with
    | none => rfl
    | some s =>
      simp only [Option.map_some, remove_renKV hρ, length_renKV]
      split
      · simp only [SetTree.delete_ren, Option.map_some]
      · simp only [SetTree.update_ren, Option.map_some]

theorem SetTree.find_ren (t : SetTree) (v : Value) :
    SetTree.find (SetTree.ren ρ t) v = (SetTree.find t v).map (fun r => (r.1.map ρ, r.2)) := by
  unfold SetTree.find
  rw [SetTree.get_ren]
  cases SetTree.get t v with
  | none => rfl
  | some o =>
    cases o with
    | none => rfl
    | some s => simp only [Option.map_some, items_renKV, length_renKV]

theorem SetTree.valueItr_ren (t : SetTree) : SetTree.valueItr (SetTree.ren ρ t) = (SetTree.valueItr t).map ρ := by
  unfold SetTree.valueItr SetTree.ren
  rw [List.map_map, List.map_flatten, List.map_map]
  congr 1
  apply List.map_congr_left
  intro e _
  simp only [Function.comp, items_renKV]

include hρ in
theorem Index.add_ren (ix : Index) (v : Value) (x : Nat) : (ix.ren ρ).add v (ρ x) = (ix.add v x).map (Index.ren ρ) := by
  cases ix with
  | btree t =>
    simp only [Index.ren, Index.add, SetTree.add_ren hρ, Option.map_map]
    cases SetTree.add t v x <;> rfl
  | hash h =>
    simp only [Index.ren, Index.add, HashIx.add_ren hρ, Option.map_map]
    cases h.add v x <;> rfl

include hρ in
theorem Index.remove_ren (ix : Index) (v : Value) (x : Nat) : (ix.ren ρ).remove v (ρ x) = (ix.remove v x).map (Index.ren ρ) := by
  cases ix with
  | btree t =>
    simp only [Index.ren, Index.remove, SetTree.remove_ren hρ, Option.map_map]
    cases SetTree.remove t v x <;> rfl
  | hash h =>
    simp only [Index.ren, Index.remove, HashIx.remove_ren hρ, Option.map_map]
    cases h.remove v x <;> rfl

theorem Index.find_ren (ix : Index) (v : Value) : (ix.ren ρ).find v = (ix.find v).map (fun r => (r.1.map ρ, r.2)) := by
  cases ix with
  | btree t => exact SetTree.find_ren t v
  | hash h => exact h.find_ren v

theorem Index.valueItr_ren (ix : Index) : (ix.ren ρ).valueItr = ix.valueItr.map ρ := by
  cases ix with
  | btree t => exact SetTree.valueItr_ren t
  | hash h => exact h.valueItr_ren

include hρ in
theorem Indexes.add_ren (ixs : Indexes) (k : String) (v : Value) (x : Nat) :
    Indexes.add (ixs.ren ρ) k v (ρ x) = (Indexes.add ixs k v x).map (Indexes.ren ρ) := by
  unfold Indexes.add
  have hg : AMap.get (ixs.ren ρ) k = (AMap.get ixs k).map (Index.ren ρ) := get_renV _ _ _
  rw [hg]
  cases AMap.get ixs k with
  | none => rfl
  | some ix =>
    simp only [Option.map_some, Index.add_ren hρ, Option.map_map]
    cases ix.add v x with
    | none => rfl
    | some i => simp only [Option.map_some, Function.comp, Indexes.ren, set_renV]

include hρ in
theorem Indexes.remove_ren (ixs : Indexes) (k : String) (v : Value) (x : Nat) :
    Indexes.remove (ixs.ren ρ) k v (ρ x) = (Indexes.remove ixs k v x).map (Indexes.ren ρ) := by
  unfold Indexes.remove
  have hg : AMap.get (ixs.ren ρ) k = (AMap.get ixs k).map (Index.ren ρ) := get_renV _ _ _
  rw [hg]
  cases AMap.get ixs k with
  | none => rfl
  | some ix =>
    simp only [Option.map_some, Index.remove_ren hρ, Option.map_map]
    cases ix.remove v x with
    | none => rfl
    | some i => simp only [Option.map_some, Function.comp, Indexes.ren, set_renV]

include hρ in
theorem Indexes.addAll_ren (x : Nat) : ∀ (ps : Props) (ixs : Indexes),
    Indexes.addAll (ρ x) ps (ixs.ren ρ) = (Indexes.addAll x ps ixs).map (Indexes.ren ρ)
  | [], _ => rfl
  | (k, v) :: ps, ixs => by
    rw [Indexes.addAll, Indexes.addAll, Indexes.add_ren hρ]
    cases Indexes.add ixs k v x with
    | none => rfl
    | some i => exact Indexes.addAll_ren x ps i

include hρ in
theorem Indexes.removeAll_ren (x : Nat) : ∀ (ps : Props) (ixs : Indexes),
    Indexes.removeAll (ρ x) ps (ixs.ren ρ) = (Indexes.removeAll x ps ixs).map (Indexes.ren ρ)
  | [], _ => rfl
  | (k, v) :: ps, ixs => by
    rw [Indexes.removeAll, Indexes.removeAll, Indexes.remove_ren hρ]
    cases Indexes.remove ixs k v x with
    | none => rfl
    | some i => exact Indexes.removeAll_ren x ps i

include hρ in
theorem Index.addObjects_ren {key : String} {f f' : Nat → Props} (hf : FieldRen N ρ id f f') : ∀ (xs : List Nat) (ix : Index),
    (∀ x ∈ xs, N (ρ x)) → Index.addObjects key f' (xs.map ρ) (ix.ren ρ) = (Index.addObjects key f xs ix).map (Index.ren ρ)
  | [], _, _ => rfl
  | x :: xs, ix, hx => by
    have : f' (ρ x) = f x := hf x (hx x (by simp))
    rw [List.map_cons, Index.addObjects, Index.addObjects, this]
    cases (f x).get key with
    | none => exact Index.addObjects_ren hf xs ix (fun y hy => hx y (by simp [hy]))
    | some v =>
      simp only [Index.add_ren hρ]
      cases ix.add v x with
      | none => rfl
      | some i => exact Index.addObjects_ren hf xs i (fun y hy => hx y (by simp [hy]))

end LPG
