import Verif.Model.PropHeap
import Verif.Proofs.Core
/-!
# C47 NewNode/NewEdge copy their inputs, the Fast variants share the map
-/
namespace LPG
open PHeap

/-! ## Specification -/

/-- The effect on the properties of object `o` of the calls addressed to `o`; everything else leaves them alone. -/
def ownEffect (o : Nat) (p : String → Option Value) : POp → String → Option Value
  | .setProp o' k v => if o' = o then upd p k (some v) else p
  | .removeProp o' k => if o' = o then upd p k none else p
  | _ => p

/-- The operation gives the variable `x` a new map. -/
def PHeap.POp.rebinds (x : Nat) : POp → Bool
  | .make y => y = x
  | .assign y _ => y = x
  | _ => false

/-- The operation is addressed to object `o`. -/
def PHeap.POp.targets (o : Nat) : POp → Bool
  | .setProp o' _ _ => o' = o
  | .removeProp o' _ => o' = o
  | _ => false

/-! ## Invariants -/

/-- Pointers are allocated; ids of objects to come are unused. -/
structure PWF (h : PHeap) : Prop where
  var : ∀ x a, h.var x = some a → a < h.next
  obj : ∀ o a, h.obj o = some a → a < h.next
  keys : ∀ a, (AMap.keys (h.mem a)).Nodup

/-- Only object `o` points to its map. -/
def Owns (h : PHeap) (o : Nat) : Prop :=
  ∀ a, h.obj o = some a → (∀ x, h.var x ≠ some a) ∧ ∀ o', o' ≠ o → h.obj o' ≠ some a

theorem PWF.init : PWF PHeap.new := by
  constructor <;> simp [PHeap.new, AMap.keys]

theorem copyLoop_keys : ∀ (r : List (String × Value)) (p : Props), (AMap.keys p).Nodup → (AMap.keys (copyLoop p r)).Nodup
  | [], _, h => h
  | (k, v) :: r, p, h => copyLoop_keys r _ (AMap.nodup_set h k v)

theorem copyLoop_get : ∀ (r : List (String × Value)) (p : Props) (k : String), (AMap.keys r).Nodup →
    (copyLoop p r).get k = match AMap.get r k with | some v => some v | none => p.get k
  | [], p, k, _ => rfl
  | (k', v) :: r, p, k, h => by
    have hn := List.nodup_cons.1 h
    rw [copyLoop, copyLoop_get r _ k hn.2]
    by_cases hk : k' = k
    · subst hk
      have : AMap.get r k' = none := AMap.not_mem_keys.1 hn.1
      simp [this, AMap.get]
    · simp only [AMap.get, hk, if_false]
      cases AMap.get r k with
      | some _ => rfl
      | none => simp [AMap.get_set_other _ _ (Ne.symm hk)]

theorem PWF.step {h h' : PHeap} {op : POp} (w : PWF h) (hs : h.step op = some h') : PWF h' := by
  have up : ∀ {a b : Nat}, a < b → a < b + 1 := fun h => Nat.lt_succ_of_lt h
  have mk : ∀ {a : Nat} {p : Props}, (AMap.keys p).Nodup → ∀ b, (AMap.keys (upd h.mem a p b)).Nodup := by
    intro a p hp b
    rw [upd_apply]; split
    · exact hp
    · exact w.keys b
  cases op with
  | make x =>
    cases hs
    refine ⟨?_, fun o a ha => up (w.obj o a ha), mk (by simp [AMap.keys])⟩
    intro y a ha
    simp only [upd_apply] at ha
    split at ha
    · cases ha; exact Nat.lt_succ_self _
    · exact up (w.var y a ha)
  | assign x y =>
    cases hs
    refine ⟨?_, w.obj, w.keys⟩
    intro z a ha
    simp only [upd_apply] at ha
    split at ha
    · exact w.var y a ha
    · exact w.var z a ha
  | write x k v =>
    simp only [PHeap.step] at hs
    split at hs
    · cases hs
    · cases hs; exact ⟨w.var, w.obj, mk (AMap.nodup_set (w.keys _) _ _)⟩
  | erase x k =>
    simp only [PHeap.step] at hs
    split at hs
    · cases hs; exact w
    · cases hs; exact ⟨w.var, w.obj, mk (AMap.nodup_del (w.keys _) _)⟩
  | writeSlice sl ls => cases hs; exact ⟨w.var, w.obj, w.keys⟩
  | newObj sl x =>
    simp only [PHeap.step] at hs
    split at hs
    · cases hs
      refine ⟨fun o a ha => up (w.var o a ha), ?_, mk (copyLoop_keys _ _ (by simp [AMap.keys]))⟩
      intro o a ha
      simp only [upd_apply] at ha
      split at ha
      · cases ha; exact Nat.lt_succ_self _
      · exact up (w.obj o a ha)
    · cases hs
      refine ⟨w.var, ?_, w.keys⟩
      intro o a ha
      simp only [upd_apply] at ha
      split at ha
      · cases ha
      · exact w.obj o a ha
  | fastNewObj ls x =>
    cases hs
    refine ⟨w.var, ?_, w.keys⟩
    intro o a ha
    simp only [upd_apply] at ha
    split at ha
    · exact w.var x a ha
    · exact w.obj o a ha
  | setProp o k v =>
    simp only [PHeap.step] at hs
    split at hs
    · split at hs
      · cases hs
        refine ⟨fun o a ha => up (w.var o a ha), ?_, mk (AMap.nodup_set (by simp [AMap.keys]) _ _)⟩
        intro o a ha
        simp only [upd_apply] at ha
        split at ha
        · cases ha; exact Nat.lt_succ_self _
        · exact up (w.obj o a ha)
      · cases hs; exact ⟨w.var, w.obj, mk (AMap.nodup_set (w.keys _) _ _)⟩
    · cases hs
  | removeProp o k =>
    simp only [PHeap.step] at hs
    split at hs
    · split at hs
      · cases hs; exact w
      · cases hs; exact ⟨w.var, w.obj, mk (AMap.nodup_del (w.keys _) _)⟩
    · cases hs

theorem PWF.runFrom {ops : List POp} : ∀ {h h' : PHeap}, PWF h → h.runFrom ops = some h' → PWF h' := by
  induction ops with
  | nil => intro h h' w hs; cases hs; exact w
  | cons op ops ih =>
    intro h h' w hs
    rw [PHeap.runFrom] at hs
    split at hs
    · cases hs
    · rename_i h1 e; exact ih (w.step e) hs

/-- the number of objects never decreases -/
theorem nobj_step {h h' : PHeap} {op : POp} (hs : h.step op = some h') : h.nobj ≤ h'.nobj := by
  cases op <;> simp only [PHeap.step] at hs <;> repeat' (split at hs)
  all_goals first
    | (cases hs; done)
    | (cases hs; exact Nat.le_refl _)
    | (cases hs; exact Nat.le_succ _)

theorem deref_write {h h' : PHeap} {a : Nat} {p : Props} (e : h'.mem = upd h.mem a p) {y : Option Nat}
    (hy : y ≠ some a) : h'.deref y = h.deref y := by
  cases y with
  | none => rfl
  | some b =>
    show h'.mem b = h.mem b
    rw [e]
    exact upd_other _ _ (fun hh => hy (by rw [hh]))

theorem deref_same {h h' : PHeap} (e : h'.mem = h.mem) (y : Option Nat) : h'.deref y = h.deref y := by
  cases y with
  | none => rfl
  | some b => exact congrFun e b

theorem lt_ne {y : Option Nat} {n : Nat} (h : ∀ a, y = some a → a < n) : y ≠ some n :=
  fun e => Nat.lt_irrefl _ (h n e)

/-- One step of the caller or of the library, seen from an object that owns its map. -/
theorem Owns.step {h h' : PHeap} {op : POp} {o : Nat} (w : PWF h) (ho : o < h.nobj) (p : Owns h o)
    (hs : h.step op = some h') :
    Owns h' o ∧ (∀ k, (h'.readObj o).get k = ownEffect o (fun k => (h.readObj o).get k) op k) ∧
      h'.labels o = h.labels o ∧
      (op.targets o = true → (∀ x, h'.readVar x = h.readVar x) ∧ ∀ o', o' ≠ o → h'.readObj o' = h.readObj o') := by
  have hne : o ≠ h.nobj := Nat.ne_of_lt ho
  cases op with
  | make x =>
    cases hs
    refine ⟨?_, ?_, rfl, by simp [POp.targets]⟩
    · intro a ha
      refine ⟨fun y hy => ?_, (p a ha).2⟩
      simp only [upd_apply] at hy
      split at hy
      · cases hy; exact Nat.lt_irrefl _ (w.obj o _ ha)
      · exact (p a ha).1 y hy
    · intro k
      exact congrArg (fun m => AMap.get m k) (deref_write (h := h) rfl (lt_ne (w.obj o)))
  | assign x y =>
    cases hs
    refine ⟨?_, fun k => rfl, rfl, by simp [POp.targets]⟩
    intro a ha
    refine ⟨fun z hz => ?_, (p a ha).2⟩
    simp only [upd_apply] at hz
    split at hz
    · exact (p a ha).1 y hz
    · exact (p a ha).1 z hz
  | write x k v =>
    simp only [PHeap.step] at hs
    split at hs
    · cases hs
    · rename_i a ha
      cases hs
      refine ⟨p, ?_, rfl, by simp [POp.targets]⟩
      intro k'
      exact congrArg (fun m => AMap.get m k') (deref_write (h := h) rfl (fun e => (p a e).1 x ha))
  | erase x k =>
    simp only [PHeap.step] at hs
    split at hs
    · cases hs; exact ⟨p, fun _ => rfl, rfl, by simp [POp.targets]⟩
    · rename_i a ha
      cases hs
      refine ⟨p, ?_, rfl, by simp [POp.targets]⟩
      intro k'
      exact congrArg (fun m => AMap.get m k') (deref_write (h := h) rfl (fun e => (p a e).1 x ha))
  | writeSlice sl ls => cases hs; exact ⟨p, fun _ => rfl, rfl, by simp [POp.targets]⟩
  | newObj sl x =>
    simp only [PHeap.step] at hs
    split at hs
    · cases hs
      refine ⟨?_, ?_, upd_other _ _ hne, by simp [POp.targets]⟩
      · intro a ha
        have ha' : h.obj o = some a := by simpa [upd_other _ _ hne] using ha
        refine ⟨(p a ha').1, fun o' ho' hh => ?_⟩
        simp only [upd_apply] at hh
        split at hh
        · cases hh; exact Nat.lt_irrefl _ (w.obj o _ ha')
        · exact (p a ha').2 o' ho' hh
      · intro k
        have : (upd h.obj h.nobj (some h.next)) o = h.obj o := upd_other _ _ hne
        simp only [PHeap.readObj, this, ownEffect]
        exact congrArg (fun m => AMap.get m k) (deref_write (h := h) rfl (lt_ne (w.obj o)))
    · cases hs
      have : (upd h.obj h.nobj none) o = h.obj o := upd_other _ _ hne
      refine ⟨?_, ?_, upd_other _ _ hne, by simp [POp.targets]⟩
      · intro a ha
        have ha' : h.obj o = some a := by simpa [upd_other _ _ hne] using ha
        refine ⟨(p a ha').1, fun o' ho' hh => ?_⟩
        simp only [upd_apply] at hh
        split at hh
        · cases hh
        · exact (p a ha').2 o' ho' hh
      · intro k
        simp only [PHeap.readObj, this, ownEffect]
        exact congrArg (fun m => AMap.get m k) (deref_same (h := h) rfl _)
  | fastNewObj ls x =>
    cases hs
    have : (upd h.obj h.nobj (h.var x)) o = h.obj o := upd_other _ _ hne
    refine ⟨?_, ?_, upd_other _ _ hne, by simp [POp.targets]⟩
    · intro a ha
      have ha' : h.obj o = some a := by simpa [upd_other _ _ hne] using ha
      refine ⟨(p a ha').1, fun o' ho' hh => ?_⟩
      simp only [upd_apply] at hh
      split at hh
      · exact (p a ha').1 x hh
      · exact (p a ha').2 o' ho' hh
    · intro k
      simp only [PHeap.readObj, this, ownEffect]
      exact congrArg (fun m => AMap.get m k) (deref_same (h := h) rfl _)
  | setProp q k v =>
    simp only [PHeap.step] at hs
    split at hs
    · split at hs
      · rename_i hq
        cases hs
        by_cases hqo : q = o
        · subst hqo
          refine ⟨?_, ?_, rfl, fun _ => ⟨fun x => ?_, fun o' ho' => ?_⟩⟩
          · intro a ha
            simp only [upd_same, Option.some.injEq] at ha
            subst ha
            refine ⟨fun x hx => Nat.lt_irrefl _ (w.var x _ hx), fun o' ho' hh => ?_⟩
            simp only [upd_other _ _ ho'] at hh
            exact Nat.lt_irrefl _ (w.obj o' _ hh)
          · intro k'
            simp only [PHeap.readObj, hq, upd_same, PHeap.deref, ownEffect, if_true, AMap.get_set, upd_apply]
          · exact deref_write (h := h) rfl (lt_ne (w.var x))
          · simp only [PHeap.readObj, upd_other _ _ ho']
            exact deref_write (h := h) rfl (lt_ne (w.obj o'))
        · have : (upd h.obj q (some h.next)) o = h.obj o := upd_other _ _ (Ne.symm hqo)
          refine ⟨?_, ?_, rfl, by simp [POp.targets, hqo]⟩
          · intro a ha
            have ha' : h.obj o = some a := by simpa [upd_other _ _ (Ne.symm hqo)] using ha
            refine ⟨(p a ha').1, fun o' ho' hh => ?_⟩
            simp only [upd_apply] at hh
            split at hh
            · cases hh; exact Nat.lt_irrefl _ (w.obj o _ ha')
            · exact (p a ha').2 o' ho' hh
          · intro k'
            simp only [PHeap.readObj, this, ownEffect, hqo, if_false]
            exact congrArg (fun m => AMap.get m k') (deref_write (h := h) rfl (lt_ne (w.obj o)))
      · rename_i a hq
        cases hs
        by_cases hqo : q = o
        · subst hqo
          refine ⟨p, ?_, rfl, fun _ => ⟨fun x => ?_, fun o' ho' => ?_⟩⟩
          · intro k'
            simp only [PHeap.readObj, hq, upd_same, PHeap.deref, ownEffect, if_true, AMap.get_set, upd_apply]
          · exact deref_write (h := h) rfl ((p a hq).1 x)
          · exact deref_write (h := h) rfl ((p a hq).2 o' ho')
        · refine ⟨p, ?_, rfl, by simp [POp.targets, hqo]⟩
          intro k'
          simp only [ownEffect, hqo, if_false]
          exact congrArg (fun m => AMap.get m k') (deref_write (h := h) rfl (fun e => (p a e).2 q hqo hq))
    · cases hs
  | removeProp q k =>
    simp only [PHeap.step] at hs
    split at hs
    · split at hs
      · rename_i hq
        cases hs
        refine ⟨p, ?_, rfl, fun _ => ⟨fun _ => rfl, fun _ _ => rfl⟩⟩
        intro k'
        simp only [ownEffect]
        split
        · rename_i e; subst e
          simp only [upd_apply, PHeap.readObj, hq, PHeap.deref, AMap.get_nil, ite_self]
        · rfl
      · rename_i a hq
        cases hs
        by_cases hqo : q = o
        · subst hqo
          refine ⟨p, ?_, rfl, fun _ => ⟨fun x => ?_, fun o' ho' => ?_⟩⟩
          · intro k'
            simp only [PHeap.readObj, hq, upd_same, PHeap.deref, ownEffect, if_true, AMap.get_del, upd_apply]
          · exact deref_write (h := h) rfl ((p a hq).1 x)
          · exact deref_write (h := h) rfl ((p a hq).2 o' ho')
        · refine ⟨p, ?_, rfl, by simp [POp.targets, hqo]⟩
          intro k'
          simp only [ownEffect, hqo, if_false]
          exact congrArg (fun m => AMap.get m k') (deref_write (h := h) rfl (fun e => (p a e).2 q hqo hq))
    · cases hs

theorem Owns.runFrom {ops : List POp} {o : Nat} : ∀ {h h' : PHeap}, PWF h → o < h.nobj → Owns h o →
    h.runFrom ops = some h' → Owns h' o ∧ h'.labels o = h.labels o ∧
      (fun k => (h'.readObj o).get k) = ops.foldl (ownEffect o) (fun k => (h.readObj o).get k) := by
  induction ops with
  | nil => intro h h' w ho p hs; cases hs; exact ⟨p, rfl, rfl⟩
  | cons op ops ih =>
    intro h h' w ho p hs
    rw [PHeap.runFrom] at hs
    split at hs
    · cases hs
    · rename_i h1 e
      obtain ⟨p1, r1, l1, _⟩ := p.step w ho e
      obtain ⟨p2, l2, r2⟩ := ih (w.step e) (Nat.lt_of_lt_of_le ho (nobj_step e)) p1 hs
      refine ⟨p2, l2.trans l1, r2.trans ?_⟩
      rw [List.foldl_cons]
      congr 1
      funext k
      exact r1 k

theorem prunFrom_append {ops1 ops2 : List POp} : ∀ {h h' : PHeap}, h.runFrom (ops1 ++ ops2) = some h' →
    ∃ h1, h.runFrom ops1 = some h1 ∧ h1.runFrom ops2 = some h' := by
  induction ops1 with
  | nil => intro h h' hs; exact ⟨h, rfl, hs⟩
  | cons op ops ih =>
    intro h h' hs
    rw [List.cons_append, PHeap.runFrom] at hs
    split at hs
    · cases hs
    · rename_i h1 e
      obtain ⟨h2, a, b⟩ := ih hs
      exact ⟨h2, by rw [PHeap.runFrom, e]; exact a, b⟩

/-- Facts about an object just created with `NewNode`/`NewEdge`. -/
theorem newObj_spec {h h1 : PHeap} {sl x : Nat} (w : PWF h) (hs : h.step (.newObj sl x) = some h1) :
    h1.nobj = h.nobj + 1 ∧ Owns h1 h.nobj ∧ (∀ k, (h1.readObj h.nobj).get k = (h.readVar x).get k) ∧
      (∀ l, l ∈ h1.labels h.nobj ↔ l ∈ h.slice sl) ∧ (h1.labels h.nobj).Nodup := by
  simp only [PHeap.step] at hs
  have hk : (AMap.keys (h.readVar x)).Nodup := by
    unfold PHeap.readVar
    cases h.var x with
    | none => simp [PHeap.deref, AMap.keys]
    | some a => exact w.keys a
  split at hs
  · cases hs
    refine ⟨rfl, ?_, ?_, ?_, ?_⟩
    · intro a ha
      simp only [upd_same, Option.some.injEq] at ha
      subst ha
      refine ⟨fun y hy => Nat.lt_irrefl _ (w.var y _ hy), fun o' ho' hh => ?_⟩
      simp only [upd_other _ _ ho'] at hh
      exact Nat.lt_irrefl _ (w.obj o' _ hh)
    · intro k
      simp only [PHeap.readObj, upd_same, PHeap.deref]
      have hc := copyLoop_get (h.readVar x) [] k hk
      cases hg : AMap.get (h.readVar x) k with
      | some v => rw [hg] at hc; exact hc
      | none => rw [hg] at hc; exact hc
    · intro l; simp only [upd_same]; exact (eraseDups_spec (h.slice sl)).2 l
    · simp only [upd_same]; exact (eraseDups_spec (h.slice sl)).1
  · rename_i hl
    cases hs
    refine ⟨rfl, ?_, ?_, ?_, ?_⟩
    · intro a ha
      simp only [upd_same] at ha
      cases ha
    · intro k
      have he : h.readVar x = [] := List.length_eq_zero_iff.1 (Nat.eq_zero_of_not_pos hl)
      simp only [PHeap.readObj, upd_same, PHeap.deref, he]
    · intro l; simp only [upd_same]; exact (eraseDups_spec (h.slice sl)).2 l
    · simp only [upd_same]; exact (eraseDups_spec (h.slice sl)).1

/-! ## C47 -/

/-- After `NewNode(sl, x)` (or `NewEdge`) creating the object `o` at any point of a program, whatever the caller does
to its maps and slices and whatever calls are made on other objects, the properties of `o` are those that `x` had at
the creation, changed only by the `SetProperty`/`RemoveProperty` calls on `o`; and its labels are the strings of `sl`
at the creation. -/
theorem C47_copies (before after : List POp) (sl x : Nat) (h h' : PHeap)
    (hb : PHeap.new.runFrom before = some h)
    (hs : PHeap.new.runFrom (before ++ .newObj sl x :: after) = some h') :
    (fun k => (h'.readObj h.nobj).get k) = after.foldl (ownEffect h.nobj) (fun k => (h.readVar x).get k) ∧
      (∀ l, l ∈ h'.labels h.nobj ↔ l ∈ h.slice sl) := by
  obtain ⟨h0, e0, hs⟩ := prunFrom_append hs
  rw [hb] at e0; cases e0
  rw [PHeap.runFrom] at hs
  split at hs
  · cases hs
  · rename_i h1 e
    have w := PWF.init.runFrom hb
    obtain ⟨n1, p1, r1, l1, _⟩ := newObj_spec w e
    obtain ⟨_, l2, r2⟩ := p1.runFrom (w.step e) (by omega) hs
    refine ⟨r2.trans ?_, fun l => by rw [l2]; exact l1 l⟩
    congr 1
    funext k
    exact r1 k

/-- The other direction: calls on an object created with `NewNode`/`NewEdge` change neither the maps of the caller
nor the properties of other objects, at any later point of the program. -/
theorem C47_copies_back (before after : List POp) (sl x : Nat) (h h' h2 : PHeap) (op : POp)
    (hb : PHeap.new.runFrom before = some h)
    (hs : PHeap.new.runFrom (before ++ .newObj sl x :: after) = some h')
    (ht : op.targets h.nobj = true) (hop : h'.step op = some h2) :
    (∀ y, h2.readVar y = h'.readVar y) ∧ ∀ o, o ≠ h.nobj → h2.readObj o = h'.readObj o := by
  have w' := PWF.init.runFrom hs
  obtain ⟨h0, e0, hs⟩ := prunFrom_append hs
  rw [hb] at e0; cases e0
  rw [PHeap.runFrom] at hs
  split at hs
  · cases hs
  · rename_i h1 e
    have w := PWF.init.runFrom hb
    obtain ⟨n1, p1, r1, l1, _⟩ := newObj_spec w e
    obtain ⟨p2, _, _⟩ := p1.runFrom (w.step e) (by omega) hs
    have hlt : h.nobj < h'.nobj := by
      have : ∀ (ops : List POp) (a b : PHeap), a.runFrom ops = some b → a.nobj ≤ b.nobj := by
        intro ops
        induction ops with
        | nil => intro a b hh; cases hh; exact Nat.le_refl _
        | cons o os ih =>
          intro a b hh
          rw [PHeap.runFrom] at hh
          split at hh
          · cases hh
          · rename_i c ec; exact Nat.le_trans (nobj_step ec) (ih _ _ hh)
      have := this _ _ _ hs
      omega
    exact (p2.step w' hlt hop).2.2.2 ht

theorem share_step {h h' : PHeap} {op : POp} {o a : Nat} (ho : o < h.nobj) (hp : h.obj o = some a)
    (hs : h.step op = some h') : h'.obj o = some a ∧ ∀ x, op.rebinds x = false → h'.var x = h.var x := by
  have hne : o ≠ h.nobj := Nat.ne_of_lt ho
  cases op with
  | make y =>
    cases hs
    exact ⟨hp, fun x hx => upd_other _ _ (by simp [POp.rebinds] at hx; exact Ne.symm hx)⟩
  | assign y z =>
    cases hs
    exact ⟨hp, fun x hx => upd_other _ _ (by simp [POp.rebinds] at hx; exact Ne.symm hx)⟩
  | write y k v =>
    simp only [PHeap.step] at hs
    split at hs
    · cases hs
    · cases hs; exact ⟨hp, fun _ _ => rfl⟩
  | erase y k =>
    simp only [PHeap.step] at hs
    split at hs <;> (cases hs; exact ⟨hp, fun _ _ => rfl⟩)
  | writeSlice _ _ => cases hs; exact ⟨hp, fun _ _ => rfl⟩
  | newObj sl y =>
    simp only [PHeap.step] at hs
    split at hs <;> (cases hs; exact ⟨(upd_other _ _ hne).trans hp, fun _ _ => rfl⟩)
  | fastNewObj ls y => cases hs; exact ⟨(upd_other _ _ hne).trans hp, fun _ _ => rfl⟩
  | setProp q k v =>
    simp only [PHeap.step] at hs
    split at hs
    · split at hs
      · rename_i hq
        cases hs
        exact ⟨(upd_other _ _ (by rintro rfl; rw [hp] at hq; cases hq)).trans hp, fun _ _ => rfl⟩
      · cases hs; exact ⟨hp, fun _ _ => rfl⟩
    · cases hs
  | removeProp q k =>
    simp only [PHeap.step] at hs
    split at hs
    · split at hs <;> (cases hs; exact ⟨hp, fun _ _ => rfl⟩)
    · cases hs

theorem share_runFrom {ops : List POp} {o a x : Nat} : ∀ {h h' : PHeap}, o < h.nobj → h.obj o = some a →
    h.var x = some a → (∀ op ∈ ops, op.rebinds x = false) → h.runFrom ops = some h' → h'.readObj o = h'.readVar x := by
  induction ops with
  | nil => intro h h' _ hp hx _ hs; cases hs; simp only [PHeap.readObj, PHeap.readVar, hp, hx]
  | cons op ops ih =>
    intro h h' ho hp hx hr hs
    rw [PHeap.runFrom] at hs
    split at hs
    · cases hs
    · rename_i h1 e
      obtain ⟨a1, a2⟩ := share_step ho hp e
      exact ih (Nat.lt_of_lt_of_le ho (nobj_step e)) a1 ((a2 x (hr op (by simp))).trans hx)
        (fun o ho => hr o (by simp [ho])) hs

/-- `FastNewNode`/`FastNewEdge` share the map passed in: as long as the caller's variable keeps holding it, the
properties of the object and the content of the variable are the same map content, after writes from either side. -/
theorem C47_shares (before after : List POp) (ls : List String) (x : Nat) (h h' : PHeap)
    (hb : PHeap.new.runFrom before = some h) (hx : h.var x ≠ none)
    (hr : ∀ op ∈ after, op.rebinds x = false)
    (hs : PHeap.new.runFrom (before ++ .fastNewObj ls x :: after) = some h') :
    h'.readObj h.nobj = h'.readVar x := by
  obtain ⟨h0, e0, hs⟩ := prunFrom_append hs
  rw [hb] at e0; cases e0
  rw [PHeap.runFrom] at hs
  obtain ⟨a, ha⟩ := Option.ne_none_iff_exists'.1 hx
  simp only [PHeap.step] at hs
  have h1 : (upd h.obj h.nobj (h.var x)) h.nobj = some a := by simp [ha]
  exact share_runFrom (o := h.nobj) (x := x) (a := a) (h := { h with obj := upd h.obj h.nobj (h.var x), labels := upd h.labels h.nobj ls, nobj := h.nobj + 1 })
    (Nat.lt_succ_self _) h1 ha hr hs

/-- A nil map cannot be shared: an object created from one behaves as if it had been created with an empty copy. -/
theorem C47_shares_nil (before after : List POp) (ls : List String) (x : Nat) (h h' : PHeap)
    (hb : PHeap.new.runFrom before = some h) (hx : h.var x = none)
    (hs : PHeap.new.runFrom (before ++ .fastNewObj ls x :: after) = some h') :
    (fun k => (h'.readObj h.nobj).get k) = after.foldl (ownEffect h.nobj) (fun _ => none) := by
  obtain ⟨h0, e0, hs⟩ := prunFrom_append hs
  rw [hb] at e0; cases e0
  rw [PHeap.runFrom] at hs
  simp only [PHeap.step] at hs
  have w := PWF.init.runFrom hb
  obtain ⟨_, _, r2⟩ := Owns.runFrom (o := h.nobj) (w.step (op := .fastNewObj ls x) rfl) (by simp)
    (fun a ha => by simp [hx] at ha) hs
  refine r2.trans ?_
  congr 1
  funext k
  simp [PHeap.readObj, hx, PHeap.deref]

/-- A program that creates a node from a map, changes the map and the slice, shares it with a second node, and
changes both nodes. -/
def demoPOps : List POp × List POp :=
  ([.make 0, .write 0 "a" (.int 1), .writeSlice 0 ["L"]],
   [.write 0 "a" (.int 2), .writeSlice 0 ["M"], .fastNewObj ["N"] 0, .setProp 1 "b" (.int 3), .setProp 0 "c" (.int 4)])

example : ∃ h, PHeap.new.runFrom (demoPOps.1 ++ .newObj 0 0 :: demoPOps.2) = some h ∧
    h.readObj 0 = [("a", .int 1), ("c", .int 4)] ∧ h.labels 0 = ["L"] ∧
    h.readVar 0 = [("a", .int 2), ("b", .int 3)] ∧ h.readObj 1 = [("a", .int 2), ("b", .int 3)] :=
  ⟨_, rfl, rfl, rfl, rfl, rfl⟩

end LPG
