import Verif.Proofs.Core
import Verif.Model.World

/-! Ownership: the operations of a graph only touch nodes and edges reachable from it. -/
namespace LPG
open State

/-- an optional pointer stays in a set -/
def PIn (P : Nat → Prop) (o : Option Nat) : Prop := ∀ x, o = some x → P x

theorem PIn.none {P : Nat → Prop} : PIn P none := fun _ h => by cases h
theorem PIn.some {P : Nat → Prop} {x : Nat} (h : P x) : PIn P (some x) := fun _ e => by cases e; exact h
theorem PIn.mono {P Q : Nat → Prop} (h : ∀ x, P x → Q x) {o : Option Nat} (p : PIn P o) : PIn Q o := fun x e => h x (p x e)

/-- the links of the edges of a set stay in the set -/
def SlotIn (E : Nat → Prop) (P : Slot) : Prop := ∀ e, E e → PIn E (P e).next ∧ PIn E (P e).prev

/-- the pointers of an edge map stay in the set -/
def EMIn (E : Nat → Prop) (m : EdgeMap) : Prop :=
  PIn E m.only ∧ ∀ l el, (l, el) ∈ m.lists → PIn E el.head ∧ PIn E el.tail

/-- a slot is unchanged outside a set -/
def SlotOff (E : Nat → Prop) (P P' : Slot) : Prop := ∀ x, ¬ E x → P' x = P x

theorem SlotOff.rfl {E : Nat → Prop} {P : Slot} : SlotOff E P P := fun _ _ => Eq.refl _
theorem SlotOff.trans {E : Nat → Prop} {P Q R : Slot} (h1 : SlotOff E P Q) (h2 : SlotOff E Q R) : SlotOff E P R :=
  fun x h => (h2 x h).trans (h1 x h)
theorem SlotOff.upd {E : Nat → Prop} {P : Slot} {e : Nat} (he : E e) (v : Elem) : SlotOff E P (upd P e v) :=
  fun _ h => upd_other _ _ (fun hh => h (hh ▸ he))

theorem SlotIn.upd {E : Nat → Prop} {P : Slot} (h : SlotIn E P) {e : Nat} {v : Elem}
    (h1 : PIn E v.next) (h2 : PIn E v.prev) : SlotIn E (upd P e v) := by
  intro x hx
  rw [upd_apply]
  split
  · exact ⟨h1, h2⟩
  · exact h x hx

theorem EList.add_in {E : Nat → Prop} {P : Slot} {l : EList} {e : Nat} (h : SlotIn E P) (hl : PIn E l.head ∧ PIn E l.tail)
    (he : E e) : SlotIn E (l.add P e).1 ∧ SlotOff E P (l.add P e).1 ∧ PIn E (l.add P e).2.head ∧ PIn E (l.add P e).2.tail := by
  have h1 : SlotIn E (LPG.upd P e { P e with prev := l.tail }) := h.upd (h e he).1 hl.2
  have o1 : SlotOff E P (LPG.upd P e { P e with prev := l.tail }) := SlotOff.upd he _
  have hh : PIn E (match l.head with | none => some e | some h => some h) := by
    cases hl' : l.head with
    | none => exact PIn.some he
    | some x => exact PIn.some (hl.1 x hl')
  unfold EList.add
  cases ht : l.tail with
  | none =>
    simp only [ht] at h1 o1
    exact ⟨h1.upd PIn.none (h1 e he).2, o1.trans (SlotOff.upd he _), hh, PIn.some he⟩
  | some t =>
    have het : E t := hl.2 t ht
    simp only [ht] at h1 o1
    have h2 := h1.upd (e := t) (v := { (LPG.upd P e { P e with prev := some t }) t with next := some e }) (PIn.some he) (h1 t het).2
    exact ⟨h2.upd PIn.none (h2 e he).2, (o1.trans (SlotOff.upd het _)).trans (SlotOff.upd he _), hh, PIn.some he⟩

theorem EList.remove_in {E : Nat → Prop} {P : Slot} {l : EList} {e : Nat} (h : SlotIn E P) (hl : PIn E l.head ∧ PIn E l.tail)
    (he : E e) : SlotIn E (l.remove P e).1 ∧ SlotOff E P (l.remove P e).1 ∧ PIn E (l.remove P e).2.head ∧ PIn E (l.remove P e).2.tail := by
  have fin : ∀ (Q : Slot) (a b : Option Nat), SlotIn E Q → SlotOff E P Q → PIn E a → PIn E b →
      SlotIn E (LPG.upd Q e ⟨none, none⟩) ∧ SlotOff E P (LPG.upd Q e ⟨none, none⟩) ∧ PIn E a ∧ PIn E b :=
    fun Q a b h1 h2 h3 h4 => ⟨h1.upd PIn.none PIn.none, h2.trans (SlotOff.upd he _), h3, h4⟩
  have second : ∀ (Q : Slot) (a b : Option Nat), SlotIn E Q → SlotOff E P Q → PIn E a → PIn E b →
      ∀ n : Int,
      let r := (match (Q e).next with
        | some x => (LPG.upd Q x { Q x with prev := (Q e).prev }, ({ head := a, tail := b, n := n } : EList))
        | none => (Q, { head := a, tail := (Q e).prev, n := n }))
      SlotIn E (LPG.upd r.1 e ⟨none, none⟩) ∧ SlotOff E P (LPG.upd r.1 e ⟨none, none⟩) ∧ PIn E r.2.head ∧ PIn E r.2.tail := by
    intro Q a b h1 h2 h3 h4 n
    cases hn : (Q e).next with
    | none => exact fin Q a _ h1 h2 h3 (h1 e he).2
    | some x =>
      have hx : E x := (h1 e he).1 x hn
      exact fin _ a b (h1.upd (h1 x hx).1 (h1 e he).2) (h2.trans (SlotOff.upd hx _)) h3 h4
  unfold EList.remove
  cases hp : (P e).prev with
  | none => exact second P _ l.tail h SlotOff.rfl (h e he).1 hl.2 l.n
  | some p =>
    have hpE : E p := (h e he).2 p hp
    have hu : SlotIn E (LPG.upd P p { P p with next := (P e).next }) := h.upd (h e he).1 (h p hpE).2
    exact second (LPG.upd P p { P p with next := (P e).next }) l.head l.tail hu (SlotOff.upd hpE _) hl.1 hl.2 l.n

theorem EMIn.get {E : Nat → Prop} {m : EdgeMap} (h : EMIn E m) {l : String} {el : EList} (hg : m.lists.get l = some el) :
    PIn E el.head ∧ PIn E el.tail := h.2 l el (AMap.mem_of_get hg)

theorem mem_amap_set {β : Type} {k k' : String} {v v' : β} : ∀ {m : AMap String β}, (k', v') ∈ AMap.set m k v →
    (k', v') ∈ m ∨ v' = v
  | [], h => by simp [AMap.set] at h; exact Or.inr h.2
  | (a, b) :: m, h => by
    rw [AMap.set] at h
    split at h
    · rcases List.mem_cons.1 h with e | h
      · cases e; exact Or.inr rfl
      · exact Or.inl (List.mem_cons_of_mem _ h)
    · rcases List.mem_cons.1 h with e | h
      · cases e; exact Or.inl (by simp)
      · rcases mem_amap_set h with h | h
        · exact Or.inl (List.mem_cons_of_mem _ h)
        · exact Or.inr h

theorem mem_amap_del {β : Type} {k : String} {p : String × β} {m : AMap String β} (h : p ∈ AMap.del m k) : p ∈ m :=
  (AMap.keys_del_sublist m k).mem h

theorem EMIn.set {E : Nat → Prop} {m : EdgeMap} (h : EMIn E m) {l : String} {el : EList}
    (h1 : PIn E el.head ∧ PIn E el.tail) : EMIn E { m with lists := m.lists.set l el } :=
  ⟨h.1, fun l' el' hm => by
    rcases mem_amap_set hm with hm | rfl
    · exact h.2 l' el' hm
    · exact h1⟩

theorem EdgeMap.doAdd_in {E : Nat → Prop} {P : Slot} {m : EdgeMap} {l : String} {e : Nat} (h : SlotIn E P) (hm : EMIn E m)
    (he : E e) : SlotIn E (m.doAdd P l e).1 ∧ SlotOff E P (m.doAdd P l e).1 ∧ EMIn E (m.doAdd P l e).2 := by
  unfold EdgeMap.doAdd
  cases hg : m.lists.get l with
  | none =>
    obtain ⟨a, b, c⟩ := EList.add_in (l := { head := none, tail := none, n := 0 }) h ⟨PIn.none, PIn.none⟩ he
    exact ⟨a, b, hm.set c⟩
  | some el =>
    obtain ⟨a, b, c⟩ := EList.add_in (l := el) h (hm.get hg) he
    exact ⟨a, b, hm.set c⟩

theorem EdgeMap.add_in {E : Nat → Prop} {P P' : Slot} {f : Nat → String} {m m' : EdgeMap} {e : Nat} (h : SlotIn E P)
    (hm : EMIn E m) (he : E e) (ha : m.add P f e = some (P', m')) : SlotIn E P' ∧ SlotOff E P P' ∧ EMIn E m' := by
  unfold EdgeMap.add at ha
  split at ha
  · cases ha; exact ⟨h, SlotOff.rfl, PIn.some he, hm.2⟩
  · split at ha
    · split at ha
      · cases ha
      · rename_i o ho
        have hoE : E o := hm.1 o ho
        have m0 : EMIn E { m with lists := [] } := ⟨hm.1, by simp⟩
        obtain ⟨a1, b1, c1⟩ := EdgeMap.doAdd_in (l := f o) h m0 hoE
        have m1 : EMIn E { (EdgeMap.doAdd P { m with lists := [] } (f o) o).2 with only := none } := ⟨PIn.none, c1.2⟩
        obtain ⟨a2, b2, c2⟩ := EdgeMap.doAdd_in (l := f e) a1 m1 he
        cases ha
        exact ⟨a2, b1.trans b2, c2.1, c2.2⟩
    · obtain ⟨a1, b1, c1⟩ := EdgeMap.doAdd_in (l := f e) h hm he
      cases ha
      exact ⟨a1, b1, c1.1, c1.2⟩

theorem EdgeMap.remove_in {E : Nat → Prop} {P : Slot} {f : Nat → String} {m : EdgeMap} {e : Nat} (h : SlotIn E P)
    (hm : EMIn E m) (he : E e) : SlotIn E (m.remove P f e).1 ∧ SlotOff E P (m.remove P f e).1 ∧ EMIn E (m.remove P f e).2 := by
  unfold EdgeMap.remove
  split
  · exact ⟨h, SlotOff.rfl, hm⟩
  · split
    · split
      · exact ⟨h, SlotOff.rfl, hm⟩
      · exact ⟨h, SlotOff.rfl, PIn.none, hm.2⟩
    · split
      · exact ⟨h, SlotOff.rfl, hm⟩
      · rename_i el hg
        obtain ⟨a, b, c⟩ := EList.remove_in h (hm.get hg) he
        refine ⟨a, b, ?_⟩
        simp only
        split
        · have hd : ∀ l' el', (l', el') ∈ m.lists.del (f e) → PIn E el'.head ∧ PIn E el'.tail :=
            fun l' el' hh => hm.2 l' el' (mem_amap_del hh)
          split
          · cases hl : List.getLast? (m.lists.del (f e)) with
            | none => exact ⟨hm.1, by simp⟩
            | some p => exact ⟨(hd p.1 p.2 (List.mem_of_getLast? hl)).1, by simp⟩
          · exact ⟨hm.1, hd⟩
        · have hs := hm.set (l := f e) c
          split
          · cases hl : List.getLast? (m.lists.set (f e) (EList.remove P el e).2) with
            | none => exact ⟨hm.1, by simp⟩
            | some p => exact ⟨(hs.2 p.1 p.2 (List.mem_of_getLast? hl)).1, by simp⟩
          · exact hs

/-! ## Enumerations stay inside -/

theorem walk_in {P : Nat → Prop} {next : Nat → Option Nat} (h : ∀ x, P x → PIn P (next x)) : ∀ {fuel : Nat} {o : Option Nat}
    {xs : List Nat}, PIn P o → walk next fuel o = some xs → ∀ x ∈ xs, P x
  | fuel, none, xs, _, hw => by
    have : xs = [] := by cases fuel <;> simp [walk] at hw <;> exact hw.symm ▸ rfl
    simp [this]
  | 0, some _, _, _, hw => by simp [walk] at hw
  | fuel + 1, some y, xs, ho, hw => by
    rw [walk] at hw
    split at hw
    · cases hw
    · rename_i ys hy
      cases hw
      intro x hx
      rcases List.mem_cons.1 hx with rfl | hx
      · exact ho _ rfl
      · exact walk_in h (h y (ho y rfl)) hy x hx

theorem concatOpt_mem : ∀ {l : List (Option (List Nat))} {xs : List Nat}, concatOpt l = some xs → ∀ x ∈ xs,
    ∃ ys, some ys ∈ l ∧ x ∈ ys
  | [], xs, h, x, hx => by simp [concatOpt] at h; subst h; cases hx
  | none :: _, _, h, _, _ => by simp [concatOpt] at h
  | some ys :: r, xs, h, x, hx => by
    rw [concatOpt] at h
    split at h
    · cases h
    · rename_i zs hz
      cases h
      rcases List.mem_append.1 hx with hx | hx
      · exact ⟨ys, by simp, hx⟩
      · obtain ⟨ws, a, b⟩ := concatOpt_mem hz x hx
        exact ⟨ws, by simp [a], b⟩

theorem EdgeMap.enum_in {E : Nat → Prop} {P : Slot} {m : EdgeMap} {fuel : Nat} {xs : List Nat} (h : SlotIn E P) (hm : EMIn E m)
    (he : m.enum P fuel = some xs) : ∀ x ∈ xs, E x := by
  unfold EdgeMap.enum at he
  split at he
  · cases he; simp
  · split at he
    · obtain ⟨o, ho, rfl⟩ := Option.map_eq_some_iff.1 he
      intro x hx
      simp at hx; subst hx
      exact hm.1 _ ho
    · intro x hx
      obtain ⟨ys, h1, h2⟩ := concatOpt_mem he x hx
      obtain ⟨p, hp, hw⟩ := List.mem_map.1 h1
      exact walk_in (fun e he => (h e he).1) (hm.2 p.1 p.2 hp).1 hw x h2

/-! ## Label map and indexes -/

/-- all items of the label map are in the set -/
def NodeMap.In (N : Nat → Prop) (nm : NodeMap) : Prop := ∀ l fs, (l, fs) ∈ nm.m → ∀ p ∈ fs, N p.2

theorem FSet.add_in {α : Type} {N : α → Prop} {fs : FSet α} (h : ∀ p ∈ fs, N p.2) {id : Nat} {a : α} (ha : N a) :
    ∀ p ∈ FSet.add fs id a, N p.2 := by
  unfold FSet.add
  split
  · exact h
  · intro p hp
    rcases List.mem_append.1 hp with hp | hp
    · exact h p hp
    · simp at hp; subst hp; exact ha

theorem FSet.remove_sub {α : Type} {fs : FSet α} {id : Nat} {p : Nat × α} (h : p ∈ FSet.remove fs id) : p ∈ fs :=
  (AMap.keys_del_sublist fs id).mem h

theorem NodeMap.In.addTo {N : Nat → Prop} {nm : NodeMap} (h : nm.In N) {n : Nat} (hn : N n) (l : String) :
    (nm.addTo n l).In N := by
  unfold NodeMap.addTo
  split
  · intro l' fs hm
    rcases mem_amap_set hm with hm | rfl
    · exact h l' fs hm
    · exact FSet.add_in (by simp) hn
  · rename_i s hg
    intro l' fs hm
    rcases mem_amap_set hm with hm | rfl
    · exact h l' fs hm
    · exact FSet.add_in (h l s (AMap.mem_of_get hg)) hn

theorem NodeMap.In.removeFrom {N : Nat → Prop} {nm : NodeMap} (h : nm.In N) (n : Nat) (l : String) :
    (nm.removeFrom n l).In N := by
  unfold NodeMap.removeFrom
  split
  · exact h
  · rename_i s hg
    simp only
    split
    · intro l' fs hm
      exact h l' fs (mem_amap_del hm)
    · intro l' fs hm
      rcases mem_amap_set hm with hm | rfl
      · exact h l' fs hm
      · intro p hp
        exact h l s (AMap.mem_of_get hg) p (FSet.remove_sub hp)

theorem NodeMap.In.addAll {N : Nat → Prop} {n : Nat} (hn : N n) : ∀ {ls : List String} {nm : NodeMap}, nm.In N →
    (ls.foldl (fun nm l => nm.addTo n l) nm).In N
  | [], _, h => h
  | l :: ls, nm, h => NodeMap.In.addAll hn (ls := ls) (h.addTo hn l)

theorem NodeMap.In.removeAll {N : Nat → Prop} {n : Nat} : ∀ {ls : List String} {nm : NodeMap}, nm.In N →
    (ls.foldl (fun nm l => nm.removeFrom n l) nm).In N
  | [], _, h => h
  | l :: ls, nm, h => NodeMap.In.removeAll (ls := ls) (h.removeFrom n l)

theorem NodeMap.In.add {N : Nat → Prop} {nm : NodeMap} (h : nm.In N) {n : Nat} (hn : N n) (ls : List String) :
    (nm.add n ls).In N := by
  unfold NodeMap.add
  split
  · exact h
  · exact NodeMap.In.addAll hn h

theorem NodeMap.In.remove {N : Nat → Prop} {nm : NodeMap} (h : nm.In N) (n : Nat) (ls : List String) :
    (nm.remove n ls).In N := by
  unfold NodeMap.remove
  split
  · exact h
  · exact NodeMap.In.removeAll h

theorem NodeMap.In.replace {N : Nat → Prop} {nm : NodeMap} (h : nm.In N) {n : Nat} (hn : N n) (a b : List String) :
    (nm.replace n a b).In N := by
  unfold NodeMap.replace
  split
  · exact h
  · have h1 : NodeMap.In N (if a.length = 0 then { nm with nolabels := FSet.remove nm.nolabels n } else nm) := by
      split <;> exact h
    simp only
    split
    · exact h1
    · exact NodeMap.In.addAll hn (NodeMap.In.removeAll h1)

/-- all objects of an index are in the set -/
def Index.In (N : Nat → Prop) : Index → Prop
  | .btree t => ∀ e ∈ t, ∀ p ∈ e.2, N p.2
  | .hash h => ∀ p ∈ h.elements, N p.2

theorem Index.In.new (N : Nat → Prop) (t : IndexType) : (Index.new t).In N := by
  cases t <;> simp [Index.new, Index.In, HashIx.empty]

theorem put_mem {t : SetTree} {k : Value} {s : FSet Nat} {e : Value × FSet Nat} (h : e ∈ SetTree.put t k s) :
    e ∈ t ∨ e = (k, s) := by
  induction t with
  | nil => simp [SetTree.put] at h; exact Or.inr h
  | cons a t ih =>
    rw [SetTree.put] at h
    split at h
    · rcases List.mem_cons.1 h with h | h
      · exact Or.inr h
      · exact Or.inl h
    · rcases List.mem_cons.1 h with h | h
      · exact Or.inl (by simp [h])
      · rcases ih h with h | h
        · exact Or.inl (by simp [h])
        · exact Or.inr h

theorem update_mem {t : SetTree} {k : Value} {s : FSet Nat} {e : Value × FSet Nat} (h : e ∈ SetTree.update t k s) :
    e ∈ t ∨ e.2 = s := by
  obtain ⟨a, ha, he⟩ := List.mem_map.1 h
  split at he
  · subst he; exact Or.inr rfl
  · subst he; exact Or.inl ha

theorem get_mem {t : SetTree} {k : Value} {s : FSet Nat} (h : SetTree.get t k = some (some s)) : ∃ e ∈ t, e.2 = s := by
  unfold SetTree.get at h
  split at h
  · cases h
  · simp only [Option.some.injEq] at h
    obtain ⟨e, he, rfl⟩ := Option.map_eq_some_iff.1 h
    exact ⟨e, List.mem_of_find?_eq_some he, rfl⟩

theorem Index.In.add {N : Nat → Prop} {ix ix' : Index} (h : ix.In N) {v : Value} {id : Nat} (hid : N id)
    (ha : ix.add v id = some ix') : ix'.In N := by
  cases ix with
  | btree t =>
    obtain ⟨t', ht, rfl⟩ := Option.map_eq_some_iff.1 ha
    unfold SetTree.add at ht
    split at ht
    · cases ht
    · cases ht
      intro e he
      rcases put_mem he with he | rfl
      · exact h e he
      · exact FSet.add_in (fs := []) (by simp) hid
    · rename_i s hg
      cases ht
      obtain ⟨e0, h0, rfl⟩ := get_mem hg
      intro e he
      rcases update_mem he with he | he
      · exact h e he
      · rw [he]; exact FSet.add_in (h e0 h0) hid
  | hash t =>
    obtain ⟨t', ht, rfl⟩ := Option.map_eq_some_iff.1 ha
    unfold HashIx.add at ht
    split at ht
    · cases ht
    · cases ht
      intro p hp
      rcases List.mem_append.1 hp with hp | hp
      · exact h p hp
      · simp at hp; subst hp; exact hid

theorem Index.In.remove {N : Nat → Prop} {ix ix' : Index} (h : ix.In N) {v : Value} {id : Nat}
    (ha : ix.remove v id = some ix') : ix'.In N := by
  cases ix with
  | btree t =>
    obtain ⟨t', ht, rfl⟩ := Option.map_eq_some_iff.1 ha
    unfold SetTree.remove at ht
    split at ht
    · cases ht
    · cases ht; exact h
    · rename_i s hg
      obtain ⟨e0, h0, rfl⟩ := get_mem hg
      simp only at ht
      split at ht
      · cases ht
        intro e he
        exact h e (List.mem_filter.1 he).1
      · cases ht
        intro e he
        rcases update_mem he with he | he
        · exact h e he
        · rw [he]; exact fun p hp => h e0 h0 p (FSet.remove_sub hp)
  | hash t =>
    obtain ⟨t', ht, rfl⟩ := Option.map_eq_some_iff.1 ha
    unfold HashIx.remove at ht
    split at ht
    · cases ht; exact h
    · split at ht
      · cases ht
      · split at ht
        · cases ht; exact h
        · split at ht
          · cases ht; exact h
          · cases ht
            intro p hp
            exact h p (List.mem_filter.1 hp).1

def Indexes.In (N : Nat → Prop) (ixs : Indexes) : Prop := ∀ k ix, (k, ix) ∈ ixs → ix.In N

theorem Indexes.In.set {N : Nat → Prop} {ixs : Indexes} (h : ixs.In N) {ix : Index} (hi : ix.In N) (k : String) :
    Indexes.In N (AMap.set ixs k ix) := by
  intro k' ix' hm
  rcases mem_amap_set hm with hm | rfl
  · exact h k' ix' hm
  · exact hi

theorem Indexes.In.add {N : Nat → Prop} {ixs ixs' : Indexes} (h : ixs.In N) {k : String} {v : Value} {id : Nat} (hid : N id)
    (ha : Indexes.add ixs k v id = some ixs') : ixs'.In N := by
  unfold Indexes.add at ha
  split at ha
  · cases ha; exact h
  · rename_i ix hg
    obtain ⟨ix', h1, rfl⟩ := Option.map_eq_some_iff.1 ha
    exact h.set ((h k ix (AMap.mem_of_get hg)).add hid h1) k

theorem Indexes.In.remove {N : Nat → Prop} {ixs ixs' : Indexes} (h : ixs.In N) {k : String} {v : Value} {id : Nat}
    (ha : Indexes.remove ixs k v id = some ixs') : ixs'.In N := by
  unfold Indexes.remove at ha
  split at ha
  · cases ha; exact h
  · rename_i ix hg
    obtain ⟨ix', h1, rfl⟩ := Option.map_eq_some_iff.1 ha
    exact h.set ((h k ix (AMap.mem_of_get hg)).remove h1) k

theorem Indexes.In.addAll {N : Nat → Prop} {id : Nat} (hid : N id) : ∀ {ps : Props} {ixs ixs' : Indexes}, ixs.In N →
    Indexes.addAll id ps ixs = some ixs' → ixs'.In N
  | [], _, _, h, ha => by simp [Indexes.addAll] at ha; subst ha; exact h
  | (k, v) :: ps, ixs, ixs', h, ha => by
    rw [Indexes.addAll] at ha
    split at ha
    · cases ha
    · rename_i i1 h1
      exact Indexes.In.addAll hid (h.add hid h1) ha

theorem Indexes.In.removeAll {N : Nat → Prop} {id : Nat} : ∀ {ps : Props} {ixs ixs' : Indexes}, ixs.In N →
    Indexes.removeAll id ps ixs = some ixs' → ixs'.In N
  | [], _, _, h, ha => by simp [Indexes.removeAll] at ha; subst ha; exact h
  | (k, v) :: ps, ixs, ixs', h, ha => by
    rw [Indexes.removeAll] at ha
    split at ha
    · cases ha
    · rename_i i1 h1
      exact Indexes.In.removeAll (h.remove h1) ha

theorem addObjects_in {N : Nat → Prop} {key : String} {props : Nat → Props} : ∀ {xs : List Nat} {ix ix' : Index},
    (∀ x ∈ xs, N x) → ix.In N → Index.addObjects key props xs ix = some ix' → ix'.In N
  | [], _, _, _, h, ha => by simp [Index.addObjects] at ha; subst ha; exact h
  | x :: xs, ix, ix', hx, h, ha => by
    rw [Index.addObjects] at ha
    split at ha
    · exact addObjects_in (fun y hy => hx y (by simp [hy])) h ha
    · split at ha
      · cases ha
      · rename_i i1 h1
        exact addObjects_in (fun y hy => hx y (by simp [hy])) (h.add (hx x (by simp)) h1) ha

/-! ## The operations -/

/-- Every pointer reachable from the root of the graph and from its objects leads to its objects: nodes `N`,
edges `E`. -/
structure Closed (N E : Nat → Prop) (s : State) : Prop where
  head : PIn N s.allNodes.head
  tail : PIn N s.allNodes.tail
  link : ∀ x, N x → PIn N (s.nptr.next x) ∧ PIn N (s.nptr.prev x)
  ends : ∀ e, E e → N (s.eFrom e) ∧ N (s.eTo e)
  maps : ∀ n, N n → EMIn E (s.incoming n) ∧ EMIn E (s.outgoing n)
  all : EMIn E s.allEdges
  sl0 : SlotIn E s.slot0
  sl1 : SlotIn E s.slot1
  sl2 : SlotIn E s.slot2
  lbl : s.byLabel.In N
  nix : s.nodeIx.In N
  eix : s.edgeIx.In E

/-- The fields of nodes outside `N` and edges outside `E` are the same in both states. -/
structure Frame (N E : Nat → Prop) (s s' : State) : Prop where
  node : ∀ x, ¬ N x → s'.nptr.next x = s.nptr.next x ∧ s'.nptr.prev x = s.nptr.prev x ∧ s'.nLabels x = s.nLabels x ∧
    s'.nProps x = s.nProps x ∧ s'.incoming x = s.incoming x ∧ s'.outgoing x = s.outgoing x
  edge : ∀ x, ¬ E x → s'.eFrom x = s.eFrom x ∧ s'.eTo x = s.eTo x ∧ s'.eLabel x = s.eLabel x ∧
    s'.eProps x = s.eProps x ∧ s'.slot0 x = s.slot0 x ∧ s'.slot1 x = s.slot1 x ∧ s'.slot2 x = s.slot2 x

theorem Frame.rfl {N E : Nat → Prop} {s : State} : Frame N E s s :=
  ⟨fun _ _ => ⟨Eq.refl _, Eq.refl _, Eq.refl _, Eq.refl _, Eq.refl _, Eq.refl _⟩,
   fun _ _ => ⟨Eq.refl _, Eq.refl _, Eq.refl _, Eq.refl _, Eq.refl _, Eq.refl _, Eq.refl _⟩⟩

theorem Frame.trans {N E : Nat → Prop} {a b c : State} (h1 : Frame N E a b) (h2 : Frame N E b c) : Frame N E a c := by
  refine ⟨fun x hx => ?_, fun x hx => ?_⟩
  · obtain ⟨p1, p2, p3, p4, p5, p6⟩ := h1.node x hx
    obtain ⟨q1, q2, q3, q4, q5, q6⟩ := h2.node x hx
    exact ⟨q1.trans p1, q2.trans p2, q3.trans p3, q4.trans p4, q5.trans p5, q6.trans p6⟩
  · obtain ⟨p1, p2, p3, p4, p5, p6, p7⟩ := h1.edge x hx
    obtain ⟨q1, q2, q3, q4, q5, q6, q7⟩ := h2.edge x hx
    exact ⟨q1.trans p1, q2.trans p2, q3.trans p3, q4.trans p4, q5.trans p5, q6.trans p6, q7.trans p7⟩

/-- closed, and only own objects changed -/
def Good (N E : Nat → Prop) (s s' : State) : Prop := Closed N E s' ∧ Frame N E s s'

theorem Good.trans {N E : Nat → Prop} {a b c : State} (h1 : Good N E a b) (h2 : Good N E b c) : Good N E a c :=
  ⟨h2.1, h1.2.trans h2.2⟩

theorem upd_off {β : Type} {N : Nat → Prop} {f : Nat → β} {n : Nat} {v : β} (hn : N n) {x : Nat} (hx : ¬ N x) :
    upd f n v x = f x := upd_other _ _ (fun e => hx (e ▸ hn))

theorem maps_upd {N E : Nat → Prop} {f : Nat → EdgeMap} (h : ∀ n, N n → EMIn E (f n)) {k : Nat} {m : EdgeMap}
    (hm : EMIn E m) : ∀ n, N n → EMIn E (upd f k m n) := by
  intro n hn
  rw [upd_apply]; split
  · exact hm
  · exact h n hn

theorem Closed.disconnect {N E : Nat → Prop} {s : State} (c : Closed N E s) {e : Nat} (he : E e) :
    Good N E s (s.disconnect e) := by
  obtain ⟨h1, h2⟩ := c.ends e he
  obtain ⟨a1, b1, c1⟩ := EdgeMap.remove_in (f := s.eLabel) c.sl2 (c.maps _ h2).1 he
  obtain ⟨a2, b2, c2⟩ := EdgeMap.remove_in (f := s.eLabel) c.sl1 (c.maps _ h1).2 he
  refine ⟨⟨c.head, c.tail, c.link, c.ends, fun n hn => ⟨?_, ?_⟩, c.all, c.sl0, a2, a1, c.lbl, c.nix, c.eix⟩, ?_, ?_⟩
  · exact maps_upd (fun n hn => (c.maps n hn).1) c1 n hn
  · exact maps_upd (fun n hn => (c.maps n hn).2) c2 n hn
  · intro x hx
    exact ⟨rfl, rfl, rfl, rfl, upd_off h2 hx, upd_off h1 hx⟩
  · intro x hx
    exact ⟨rfl, rfl, rfl, rfl, rfl, b2 x hx, b1 x hx⟩

theorem Closed.connect {N E : Nat → Prop} {s s' : State} (c : Closed N E s) {e : Nat} (he : E e)
    (hs : s.connect e = some s') : Good N E s s' := by
  obtain ⟨h1, h2⟩ := c.ends e he
  unfold State.connect at hs
  split at hs
  · cases hs
  · rename_i p2 im hi
    simp only at hs
    split at hs
    · cases hs
    · rename_i p1 om ho
      obtain ⟨a1, b1, c1⟩ := EdgeMap.add_in c.sl2 (c.maps _ h2).1 he hi
      obtain ⟨a2, b2, c2⟩ := EdgeMap.add_in c.sl1 (c.maps _ h1).2 he ho
      cases hs
      refine ⟨⟨c.head, c.tail, c.link, c.ends, fun n hn => ⟨?_, ?_⟩, c.all, c.sl0, a2, a1, c.lbl, c.nix, c.eix⟩, ?_, ?_⟩
      · exact maps_upd (fun n hn => (c.maps n hn).1) c1 n hn
      · exact maps_upd (fun n hn => (c.maps n hn).2) c2 n hn
      · intro x hx
        exact ⟨rfl, rfl, rfl, rfl, upd_off h2 hx, upd_off h1 hx⟩
      · intro x hx
        exact ⟨rfl, rfl, rfl, rfl, rfl, b2 x hx, b1 x hx⟩

theorem Closed.dropEdge {N E : Nat → Prop} {s : State} (c : Closed N E s) {e : Nat} (he : E e) :
    Good N E s (s.dropEdge e) := by
  obtain ⟨a, b, d⟩ := EdgeMap.remove_in (f := s.eLabel) c.sl0 c.all he
  exact ⟨⟨c.head, c.tail, c.link, c.ends, c.maps, d, a, c.sl1, c.sl2, c.lbl, c.nix, c.eix⟩,
    fun x hx => ⟨rfl, rfl, rfl, rfl, rfl, rfl⟩, fun x hx => ⟨rfl, rfl, rfl, rfl, b x hx, rfl, rfl⟩⟩

theorem Closed.detachEdge {N E : Nat → Prop} {s s' : State} (c : Closed N E s) {e : Nat} (he : E e)
    (hs : s.detachEdge e = some s') : Good N E s s' := by
  have g1 := c.disconnect he
  have g2 := g1.trans (g1.1.dropEdge he)
  unfold State.detachEdge at hs
  simp only at hs
  split at hs
  · cases hs
  · rename_i ixs hx
    cases hs
    refine g2.trans ⟨?_, ?_, ?_⟩
    · exact { g2.1 with eix := g2.1.eix.removeAll hx }
    · exact fun x hx => ⟨rfl, rfl, rfl, rfl, rfl, rfl⟩
    · exact fun x hx => ⟨rfl, rfl, rfl, rfl, rfl, rfl, rfl⟩

theorem Closed.detachEdges {N E : Nat → Prop} {es : List Nat} : ∀ {s s' : State}, Closed N E s → (∀ e ∈ es, E e) →
    s.detachEdges es = some s' → Good N E s s' := by
  induction es with
  | nil => intro s s' c _ h; simp [State.detachEdges] at h; subst h; exact ⟨c, Frame.rfl⟩
  | cons e es ih =>
    intro s s' c he h
    rw [State.detachEdges] at h
    split at h
    · cases h
    · rename_i s1 h1
      have g := c.detachEdge (he e (by simp)) h1
      exact g.trans (ih g.1 (fun x hx => he x (by simp [hx])) h)

theorem EMIn.emptyMap {E : Nat → Prop} : EMIn E EdgeMap.empty := ⟨PIn.none, by simp [EdgeMap.empty]⟩

theorem Closed.clearIn {N E : Nat → Prop} {s : State} (c : Closed N E s) {n : Nat} (hn : N n) :
    Good N E s { s with incoming := upd s.incoming n EdgeMap.empty } :=
  ⟨{ c with maps := fun m hm => ⟨maps_upd (fun n hn => (c.maps n hn).1) EMIn.emptyMap m hm, (c.maps m hm).2⟩ },
   fun _ hx => ⟨rfl, rfl, rfl, rfl, upd_off hn hx, rfl⟩, fun _ _ => ⟨rfl, rfl, rfl, rfl, rfl, rfl, rfl⟩⟩

theorem Closed.clearOut {N E : Nat → Prop} {s : State} (c : Closed N E s) {n : Nat} (hn : N n) :
    Good N E s { s with outgoing := upd s.outgoing n EdgeMap.empty } :=
  ⟨{ c with maps := fun m hm => ⟨(c.maps m hm).1, maps_upd (fun n hn => (c.maps n hn).2) EMIn.emptyMap m hm⟩ },
   fun _ hx => ⟨rfl, rfl, rfl, rfl, rfl, upd_off hn hx⟩, fun _ _ => ⟨rfl, rfl, rfl, rfl, rfl, rfl, rfl⟩⟩

theorem Closed.detachNode {N E : Nat → Prop} {s s' : State} (c : Closed N E s) {n : Nat} (hn : N n)
    (hs : s.detachNode n = some s') : Good N E s s' := by
  unfold State.detachNode at hs
  split at hs
  · cases hs
  · rename_i es he
    split at hs
    · cases hs
    · rename_i s1 h1
      have g1 := c.detachEdges (EdgeMap.enum_in c.sl2 (c.maps n hn).1 he) h1
      have g2 := g1.trans (g1.1.clearIn hn)
      simp only at hs
      split at hs
      · cases hs
      · rename_i es2 he2
        split at hs
        · cases hs
        · rename_i s2 h2
          have g3 := g2.trans (g2.1.detachEdges (EdgeMap.enum_in g1.1.sl1 (g1.1.maps n hn).2 he2) h2)
          cases hs
          exact g3.trans (g3.1.clearOut hn)

theorem NList.add_in {N : Nat → Prop} {P : NPtr} {l : NList} {x : Nat} (h : ∀ y, N y → PIn N (P.next y) ∧ PIn N (P.prev y))
    (h1 : PIn N l.head) (h2 : PIn N l.tail) (hx : N x) :
    (∀ y, N y → PIn N ((l.add P x).1.next y) ∧ PIn N ((l.add P x).1.prev y)) ∧ PIn N (l.add P x).2.head ∧
      PIn N (l.add P x).2.tail ∧
      ∀ y, ¬ N y → (l.add P x).1.next y = P.next y ∧ (l.add P x).1.prev y = P.prev y := by
  have hh : PIn N (match l.head with | none => some x | some h => some h) := by
    cases hl' : l.head with
    | none => exact PIn.some hx
    | some y => exact PIn.some (h1 y hl')
  have hp : ∀ y, N y → PIn N (upd P.prev x l.tail y) := by
    intro y hy; rw [upd_apply]; split
    · exact h2
    · exact (h y hy).2
  unfold NList.add
  cases ht : l.tail with
  | none =>
    rw [ht] at hp
    exact ⟨fun y hy => ⟨(h y hy).1, hp y hy⟩, hh, PIn.some hx, fun y hy => ⟨rfl, upd_off hx hy⟩⟩
  | some t =>
    rw [ht] at hp
    refine ⟨fun y hy => ⟨?_, hp y hy⟩, hh, PIn.some hx, fun y hy => ⟨upd_off (h2 t ht) hy, upd_off hx hy⟩⟩
    show PIn N (upd P.next t (some x) y)
    rw [upd_apply]; split
    · exact PIn.some hx
    · exact (h y hy).1

theorem NList.remove_in {N : Nat → Prop} {P : NPtr} {l : NList} {x : Nat} (h : ∀ y, N y → PIn N (P.next y) ∧ PIn N (P.prev y))
    (h1 : PIn N l.head) (h2 : PIn N l.tail) (hx : N x) :
    (∀ y, N y → PIn N ((l.remove P x).1.next y) ∧ PIn N ((l.remove P x).1.prev y)) ∧ PIn N (l.remove P x).2.head ∧
      PIn N (l.remove P x).2.tail ∧
      ∀ y, ¬ N y → (l.remove P x).1.next y = P.next y ∧ (l.remove P x).1.prev y = P.prev y := by
  have second : ∀ (Q : NPtr) (a : Option Nat) (n : Int), (∀ y, N y → PIn N (Q.next y) ∧ PIn N (Q.prev y)) → PIn N a →
      (∀ y, ¬ N y → Q.next y = P.next y ∧ Q.prev y = P.prev y) →
      let r := (match Q.next x with
        | some y => (({ Q with prev := upd Q.prev y (Q.prev x) } : NPtr), ({ head := a, tail := l.tail, n := n } : NList))
        | none => (Q, { head := a, tail := some x, n := n }))
      (∀ y, N y → PIn N (r.1.next y) ∧ PIn N (r.1.prev y)) ∧ PIn N r.2.head ∧ PIn N r.2.tail ∧
        ∀ y, ¬ N y → r.1.next y = P.next y ∧ r.1.prev y = P.prev y := by
    intro Q a n hq ha hoff
    cases hn : Q.next x with
    | none => exact ⟨hq, ha, PIn.some hx, hoff⟩
    | some z =>
      have hz : N z := (hq x hx).1 z hn
      refine ⟨fun y hy => ⟨(hq y hy).1, ?_⟩, ha, h2, fun y hy => ⟨(hoff y hy).1, (upd_off hz hy).trans (hoff y hy).2⟩⟩
      show PIn N (upd Q.prev z (Q.prev x) y)
      rw [upd_apply]; split
      · exact (hq x hx).2
      · exact (hq y hy).2
  unfold NList.remove
  cases hp : P.prev x with
  | none => exact second P (P.next x) l.n h (h x hx).1 (fun y hy => ⟨rfl, rfl⟩)
  | some p =>
    have hpN : N p := (h x hx).2 p hp
    refine second { P with next := upd P.next p (P.next x) } l.head l.n ?_ h1 (fun y hy => ⟨upd_off hpN hy, rfl⟩)
    intro y hy
    refine ⟨?_, (h y hy).2⟩
    show PIn N (upd P.next p (P.next x) y)
    rw [upd_apply]; split
    · exact (h x hx).1
    · exact (h y hy).1

/-- The objects created by an operation. -/
def Op.freshN (s : State) : Op → Nat → Prop
  | .newNode _ _ => fun x => x = s.idBase
  | _ => fun _ => False
def Op.freshE (s : State) : Op → Nat → Prop
  | .newEdge _ _ _ _ => fun x => x = s.idBase
  | _ => fun _ => False

/-- The handles passed to an operation. -/
def Op.ArgsIn (N E : Nat → Prop) : Op → Prop
  | .newNode _ _ => True
  | .newEdge a b _ _ => N a ∧ N b
  | .setLabels n _ => N n
  | .setNodeProp n _ _ => N n
  | .removeNodeProp n _ => N n
  | .detach n => N n
  | .detachRemove n => N n
  | .setEdgeLabel e _ => E e
  | .setEdgeProp e _ _ => E e
  | .removeEdgeProp e _ => E e
  | .removeEdge e => E e
  | .addNodeIndex _ _ => True
  | .addEdgeIndex _ _ => True

theorem EMIn.mono {E F : Nat → Prop} (h : ∀ x, E x → F x) {m : EdgeMap} (c : EMIn E m) : EMIn F m :=
  ⟨c.1.mono h, fun l el hm => ⟨(c.2 l el hm).1.mono h, (c.2 l el hm).2.mono h⟩⟩

theorem Index.In.mono {E F : Nat → Prop} (h : ∀ x, E x → F x) {ix : Index} (c : ix.In E) : ix.In F := by
  cases ix with
  | btree t => exact fun e he p hp => h _ (c e he p hp)
  | hash t => exact fun p hp => h _ (c p hp)

/-- Whatever the history so far, an operation of a graph on its own objects changes only fields of its own objects,
and all pointers stay inside. -/
theorem Closed.step {N E : Nat → Prop} {s s' : State} {op : Op} (c : Closed N E s) (ha : op.ArgsIn N E)
    (hs : LPG.step s op = some s') :
    Good (fun x => N x ∨ op.freshN s x) (fun x => E x ∨ op.freshE s x) s s' := by
  have weak : Good N E s s' → (∀ x, ¬ op.freshN s x) → (∀ x, ¬ op.freshE s x) →
      Good (fun x => N x ∨ op.freshN s x) (fun x => E x ∨ op.freshE s x) s s' := by
    intro g h1 h2
    have e1 : (fun x => N x ∨ op.freshN s x) = N := by funext x; simp [h1]
    have e2 : (fun x => E x ∨ op.freshE s x) = E := by funext x; simp [h2]
    rw [e1, e2]; exact g
  have same : ∀ x, ¬ N x → s.nptr.next x = s.nptr.next x ∧ s.nptr.prev x = s.nptr.prev x ∧ s.nLabels x = s.nLabels x ∧
    s.nProps x = s.nProps x ∧ s.incoming x = s.incoming x ∧ s.outgoing x = s.outgoing x :=
    fun _ _ => ⟨rfl, rfl, rfl, rfl, rfl, rfl⟩
  cases op with
  | newNode ls ps =>
    obtain ⟨ixs, hix, rfl⟩ := newNode_frame hs
    have m1 : ∀ x, N x → N x ∨ x = s.idBase := fun x h => Or.inl h
    have m2 : ∀ x, E x → E x ∨ False := fun x h => Or.inl h
    have hnew : N s.idBase ∨ s.idBase = s.idBase := Or.inr rfl
    have hlink : ∀ y, (N y ∨ y = s.idBase) →
        PIn (fun x => N x ∨ x = s.idBase) (upd s.nptr.next s.idBase none y) ∧
        PIn (fun x => N x ∨ x = s.idBase) (upd s.nptr.prev s.idBase none y) := by
      intro y hy
      simp only [upd_apply]
      split
      · exact ⟨PIn.none, PIn.none⟩
      · rename_i hne
        have hy' : N y := hy.resolve_right hne
        exact ⟨(c.link y hy').1.mono m1, (c.link y hy').2.mono m1⟩
    obtain ⟨l1, l2, l3, l4⟩ := NList.add_in (N := fun x => N x ∨ x = s.idBase)
      (P := { next := upd s.nptr.next s.idBase none, prev := upd s.nptr.prev s.idBase none }) (l := s.allNodes) hlink
      (c.head.mono m1) (c.tail.mono m1) hnew
    have em : ∀ {m : EdgeMap}, EMIn E m → EMIn (fun x => E x ∨ False) m := fun h => h.mono m2
    have sl : ∀ {P : Slot}, SlotIn E P → SlotIn (fun x => E x ∨ False) P := by
      intro P h e he
      have := h e (by simpa using he)
      exact ⟨this.1.mono m2, this.2.mono m2⟩
    refine ⟨⟨l2, l3, l1, ?_, ?_, em c.all, sl c.sl0, sl c.sl1, sl c.sl2, ?_, ?_, ?_⟩, ?_, ?_⟩
    · intro e he
      have := c.ends e (by simpa [Op.freshE] using he)
      exact ⟨Or.inl this.1, Or.inl this.2⟩
    · intro n hn
      simp only [upd_apply]
      split
      · exact ⟨EMIn.emptyMap, EMIn.emptyMap⟩
      · rename_i hne
        have hy' : N n := hn.resolve_right hne
        exact ⟨em (c.maps n hy').1, em (c.maps n hy').2⟩
    · exact NodeMap.In.add (N := fun x => N x ∨ x = s.idBase) (fun l fs hm p hp => Or.inl (c.lbl l fs hm p hp)) hnew _
    · exact Indexes.In.addAll (N := fun x => N x ∨ x = s.idBase) hnew (fun k ix hm => (c.nix k ix hm).mono m1) hix
    · exact fun k ix hm => (c.eix k ix hm).mono m2
    · intro x hx
      have hne : x ≠ s.idBase := fun h => hx (Or.inr h)
      obtain ⟨p1, p2⟩ := l4 x hx
      exact ⟨p1.trans (upd_other _ _ hne), p2.trans (upd_other _ _ hne), upd_other _ _ hne, upd_other _ _ hne,
        upd_other _ _ hne, upd_other _ _ hne⟩
    · exact fun _ _ => ⟨rfl, rfl, rfl, rfl, rfl, rfl, rfl⟩
  | newEdge a b l ps =>
    show Good (fun x => N x ∨ False) (fun x => E x ∨ x = s.idBase) s s'
    have eN : (fun x => N x ∨ False) = N := by funext x; simp
    rw [eN]
    have m2 : ∀ x, E x → E x ∨ x = s.idBase := fun x h => Or.inl h
    have hnew : E s.idBase ∨ s.idBase = s.idBase := Or.inr rfl
    have sl : ∀ {P : Slot}, SlotIn E P → SlotIn (fun x => E x ∨ x = s.idBase) (upd P s.idBase ⟨none, none⟩) := by
      intro P h e he
      rw [upd_apply]
      split
      · exact ⟨PIn.none, PIn.none⟩
      · rename_i hne
        have := h e (he.resolve_right hne)
        exact ⟨this.1.mono m2, this.2.mono m2⟩
    have c0 : Good N (fun x => E x ∨ x = s.idBase) s (s.allocEdge a b l ps) := by
      refine ⟨⟨c.head, c.tail, c.link, ?_, ?_, c.all.mono m2, sl c.sl0, sl c.sl1, sl c.sl2, c.lbl, c.nix, ?_⟩, ?_, ?_⟩
      · intro e he
        simp only [State.allocEdge, upd_apply]
        split
        · exact ha
        · rename_i hne; exact c.ends e (he.resolve_right hne)
      · exact fun n hn => ⟨(c.maps n hn).1.mono m2, (c.maps n hn).2.mono m2⟩
      · exact fun k ix hm => (c.eix k ix hm).mono m2
      · exact fun _ _ => ⟨rfl, rfl, rfl, rfl, rfl, rfl⟩
      · intro x hx
        have hne : x ≠ s.idBase := fun h => hx (Or.inr h)
        simp [State.allocEdge, upd_other _ _ hne]
    simp only [LPG.step, newEdge_eq] at hs
    split at hs
    · cases hs
    · rename_i p0 m hadd
      obtain ⟨a1, b1, d1⟩ := EdgeMap.add_in c0.1.sl0 c0.1.all hnew hadd
      have c1 : Good N (fun x => E x ∨ x = s.idBase) s { s.allocEdge a b l ps with slot0 := p0, allEdges := m } :=
        c0.trans ⟨{ c0.1 with sl0 := a1, all := d1 }, fun _ _ => ⟨rfl, rfl, rfl, rfl, rfl, rfl⟩,
          fun x hx => ⟨rfl, rfl, rfl, rfl, b1 x hx, rfl, rfl⟩⟩
      split at hs
      · cases hs
      · rename_i s1 h1
        have c2 := c1.trans (c1.1.connect hnew h1)
        split at hs
        · cases hs
        · rename_i ixs hix
          cases hs
          exact c2.trans ⟨{ c2.1 with eix := c2.1.eix.addAll hnew hix },
            fun _ _ => ⟨rfl, rfl, rfl, rfl, rfl, rfl⟩, fun x hx => ⟨rfl, rfl, rfl, rfl, rfl, rfl, rfl⟩⟩
  | setLabels n ls =>
    refine weak ?_ (fun _ h => h) (fun _ h => h)
    cases hs
    exact ⟨{ c with lbl := c.lbl.replace ha _ _ }, fun _ hx => ⟨rfl, rfl, upd_off ha hx, rfl, rfl, rfl⟩,
      fun _ _ => ⟨rfl, rfl, rfl, rfl, rfl, rfl, rfl⟩⟩
  | setNodeProp n k v =>
    refine weak ?_ (fun _ h => h) (fun _ h => h)
    simp only [LPG.step, State.setNodeProp] at hs
    split at hs
    · cases hs
    · rename_i i1 h1
      split at hs
      · cases hs
      · rename_i i2 h2
        cases hs
        have hi1 : i1.In N := by
          split at h1
          · cases h1; exact c.nix
          · exact c.nix.remove h1
        exact ⟨{ c with nix := hi1.add ha h2 }, fun _ hx => ⟨rfl, rfl, rfl, upd_off ha hx, rfl, rfl⟩,
          fun _ _ => ⟨rfl, rfl, rfl, rfl, rfl, rfl, rfl⟩⟩
  | removeNodeProp n k =>
    refine weak ?_ (fun _ h => h) (fun _ h => h)
    simp only [LPG.step, State.removeNodeProp] at hs
    split at hs
    · cases hs; exact ⟨c, Frame.rfl⟩
    · split at hs
      · cases hs
      · rename_i i1 h1
        cases hs
        exact ⟨{ c with nix := c.nix.remove h1 }, fun _ hx => ⟨rfl, rfl, rfl, upd_off ha hx, rfl, rfl⟩,
          fun _ _ => ⟨rfl, rfl, rfl, rfl, rfl, rfl, rfl⟩⟩
  | detach n => exact weak (c.detachNode ha hs) (fun _ h => h) (fun _ h => h)
  | detachRemove n =>
    refine weak ?_ (fun _ h => h) (fun _ h => h)
    simp only [LPG.step, State.detachRemoveNode] at hs
    split at hs
    · cases hs
    · rename_i s1 h1
      have g1 := c.detachNode ha h1
      split at hs
      · cases hs
      · rename_i ixs hix
        cases hs
        obtain ⟨l1, l2, l3, l4⟩ := NList.remove_in g1.1.link g1.1.head g1.1.tail ha
        exact g1.trans ⟨{ g1.1 with head := l2, tail := l3, link := l1, lbl := g1.1.lbl.remove n _, nix := g1.1.nix.removeAll hix },
          fun x hx => ⟨(l4 x hx).1, (l4 x hx).2, rfl, rfl, rfl, rfl⟩, fun _ _ => ⟨rfl, rfl, rfl, rfl, rfl, rfl, rfl⟩⟩
  | setEdgeLabel e l =>
    refine weak ?_ (fun _ h => h) (fun _ h => h)
    simp only [LPG.step, State.setEdgeLabel] at hs
    split at hs
    · cases hs; exact ⟨c, Frame.rfl⟩
    · have g1 := c.disconnect ha
      have g2 : Good N E s { s.disconnect e with eLabel := upd (s.disconnect e).eLabel e l } :=
        g1.trans ⟨{ g1.1 with }, fun _ _ => ⟨rfl, rfl, rfl, rfl, rfl, rfl⟩,
          fun _ hx => ⟨rfl, rfl, upd_off ha hx, rfl, rfl, rfl, rfl⟩⟩
      exact g2.trans (g2.1.connect ha hs)
  | setEdgeProp e k v =>
    refine weak ?_ (fun _ h => h) (fun _ h => h)
    simp only [LPG.step, State.setEdgeProp] at hs
    split at hs
    · cases hs
    · rename_i i1 h1
      split at hs
      · cases hs
      · rename_i i2 h2
        cases hs
        have hi1 : i1.In E := by
          split at h1
          · cases h1; exact c.eix
          · exact c.eix.remove h1
        exact ⟨{ c with eix := hi1.add ha h2 }, fun _ hx => ⟨rfl, rfl, rfl, rfl, rfl, rfl⟩,
          fun _ hx => ⟨rfl, rfl, rfl, upd_off ha hx, rfl, rfl, rfl⟩⟩
  | removeEdgeProp e k =>
    refine weak ?_ (fun _ h => h) (fun _ h => h)
    simp only [LPG.step, State.removeEdgeProp] at hs
    split at hs
    · cases hs; exact ⟨c, Frame.rfl⟩
    · split at hs
      · cases hs
      · rename_i i1 h1
        cases hs
        exact ⟨{ c with eix := c.eix.remove h1 }, fun _ hx => ⟨rfl, rfl, rfl, rfl, rfl, rfl⟩,
          fun _ hx => ⟨rfl, rfl, rfl, upd_off ha hx, rfl, rfl, rfl⟩⟩
  | removeEdge e =>
    refine weak ?_ (fun _ h => h) (fun _ h => h)
    cases hs
    have g1 := c.disconnect ha
    exact g1.trans (g1.1.dropEdge ha)
  | addNodeIndex k t =>
    refine weak ?_ (fun _ h => h) (fun _ h => h)
    simp only [LPG.step, State.addNodeIndex] at hs
    split at hs
    · cases hs; exact ⟨c, Frame.rfl⟩
    · split at hs
      · cases hs
      · rename_i ns hns
        split at hs
        · cases hs
        · rename_i ix hix
          cases hs
          have hn : ∀ x ∈ ns, N x := walk_in (fun x hx => (c.link x hx).1) c.head hns
          exact ⟨{ c with nix := c.nix.set (addObjects_in hn (Index.In.new N t) hix) k },
            fun _ _ => ⟨rfl, rfl, rfl, rfl, rfl, rfl⟩, fun _ _ => ⟨rfl, rfl, rfl, rfl, rfl, rfl, rfl⟩⟩
  | addEdgeIndex k t =>
    refine weak ?_ (fun _ h => h) (fun _ h => h)
    simp only [LPG.step, State.addEdgeIndex] at hs
    split at hs
    · cases hs; exact ⟨c, Frame.rfl⟩
    · split at hs
      · cases hs
      · rename_i ns hns
        split at hs
        · cases hs
        · rename_i ix hix
          cases hs
          have hn : ∀ x ∈ ns, E x := EdgeMap.enum_in c.sl0 c.all hns
          exact ⟨{ c with eix := c.eix.set (addObjects_in hn (Index.In.new E t) hix) k },
            fun _ _ => ⟨rfl, rfl, rfl, rfl, rfl, rfl⟩, fun _ _ => ⟨rfl, rfl, rfl, rfl, rfl, rfl, rfl⟩⟩

end LPG
