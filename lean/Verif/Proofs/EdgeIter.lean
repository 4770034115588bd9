import Verif.Proofs.EdgeHeap
import Verif.Proofs.EdgeMap
import Batteries.Data.List.Perm

/-! Iterators over an edge map that changes. -/
namespace LPG

/-- `d` is the end of the list of the edges with the label of its first edge. -/
def Suff (f : Nat → String) (xs d : List Nat) : Prop :=
  ∀ x, d.head? = some x → ∃ pre, xs.filter (fun y => f y = f x) = pre ++ d

theorem Suff.nil (f : Nat → String) (xs : List Nat) : Suff f xs [] := by intro x hx; simp at hx

theorem Suff.mem {f : Nat → String} {xs d : List Nat} (h : Suff f xs d) {y : Nat} (hy : y ∈ d) :
    y ∈ xs ∧ ∃ x, d.head? = some x ∧ f y = f x := by
  cases d with
  | nil => simp at hy
  | cons x d =>
    obtain ⟨pre, hp⟩ := h x rfl
    have : y ∈ xs.filter (fun y => f y = f x) := by rw [hp]; exact List.mem_append_right _ hy
    simp only [List.mem_filter, decide_eq_true_eq] at this
    exact ⟨this.1, x, rfl, this.2⟩

theorem Suff.tail {f : Nat → String} {xs d : List Nat} {x : Nat} (h : Suff f xs (x :: d)) : Suff f xs d := by
  intro y hy
  cases d with
  | nil => simp at hy
  | cons z d =>
    simp only [List.head?_cons, Option.some.injEq] at hy
    subst hy
    obtain ⟨w, hw, hf⟩ := (h.mem (y := z) (by simp)).2
    simp only [List.head?_cons, Option.some.injEq] at hw
    subst hw
    obtain ⟨pre, hp⟩ := h x rfl
    exact ⟨pre ++ [x], by rw [hf, hp]; simp⟩

theorem Suff.congr {f g : Nat → String} {xs d : List Nat} (hf : ∀ x ∈ xs, g x = f x) (h : Suff f xs d) : Suff g xs d := by
  intro x hx
  obtain ⟨pre, hp⟩ := h x hx
  have hxm : x ∈ xs := (h.mem (List.mem_of_head? hx)).1
  refine ⟨pre, ?_⟩
  rw [← hp]
  apply List.filter_congr
  intro y hy
  rw [hf y hy, hf x hxm]

/-- What becomes of such an end when `e` is added. -/
def ext (f : Nat → String) (e : Nat) : List Nat → List Nat
  | [] => []
  | x :: d => if f x = f e then x :: d ++ [e] else x :: d

theorem head_ext (f : Nat → String) (e : Nat) (d : List Nat) : (ext f e d).head? = d.head? := by
  cases d with
  | nil => rfl
  | cons x d => simp only [ext]; split <;> rfl

theorem ext_eq_nil {f : Nat → String} {e : Nat} {d : List Nat} : ext f e d = [] ↔ d = [] := by
  cases d with
  | nil => simp [ext]
  | cons x d => simp only [ext]; split <;> simp

theorem Suff.add {f : Nat → String} {xs d : List Nat} {e : Nat} (h : Suff f xs d) : Suff f (xs ++ [e]) (ext f e d) := by
  cases d with
  | nil => exact Suff.nil _ _
  | cons x d =>
    obtain ⟨pre, hp⟩ := h x rfl
    intro y hy
    rw [head_ext] at hy
    simp only [List.head?_cons, Option.some.injEq] at hy
    subst hy
    refine ⟨pre, ?_⟩
    rw [List.filter_append, hp]
    by_cases hx : f x = f e
    · simp [ext, hx]
    · simp [ext, hx, Ne.symm hx]

theorem Suff.erase {f : Nat → String} {xs d : List Nat} {e : Nat} (h : Suff f xs d) (he : e ∉ d) :
    Suff f (xs.erase e) d := by
  intro x hx
  obtain ⟨pre, hp⟩ := h x hx
  by_cases hf : f e = f x
  · rw [← hf, filter_erase_eq, hf, hp]
    by_cases hm : e ∈ pre
    · exact ⟨pre.erase e, by rw [List.erase_append_left _ hm]⟩
    · refine ⟨pre, ?_⟩
      rw [List.erase_of_not_mem]
      simp [hm, he]
  · exact ⟨pre, by rw [filter_erase_ne hf, hp]⟩

/-- Two ends of the same list meet. -/
theorem Suff.meet {f : Nat → String} {xs c d : List Nat} {x y : Nat} (hc : Suff f xs c) (hd : Suff f xs d)
    (hx : c.head? = some x) (hy : d.head? = some y) (h : f x = f y) : ∃ z, z ∈ c ∧ z ∈ d := by
  obtain ⟨p, hp⟩ := hc x hx
  obtain ⟨q, hq⟩ := hd y hy
  rw [← h, hp] at hq
  have hcn : c ≠ [] := by rintro rfl; simp at hx
  have hdn : d ≠ [] := by rintro rfl; simp at hy
  obtain ⟨z, hz⟩ : ∃ z, c.getLast? = some z := by
    cases hh : c.getLast? with
    | none => exact absurd (List.getLast?_eq_none_iff.1 hh) hcn
    | some z => exact ⟨z, rfl⟩
  have e1 : (p ++ c).getLast? = some z := by rw [List.getLast?_append, hz]; rfl
  rw [hq, List.getLast?_append] at e1
  cases hw : d.getLast? with
  | none => exact absurd (List.getLast?_eq_none_iff.1 hw) hdn
  | some w =>
    rw [hw] at e1
    simp only [Option.some_or, Option.some.injEq] at e1
    subst e1
    exact ⟨w, List.mem_of_getLast? hz, List.mem_of_getLast? hw⟩

/-- An end that starts at the head of the label list is the label list. -/
theorem Suff.full {f : Nat → String} {xs d : List Nat} {l : String} (h : Suff f xs d) (hn : xs.Nodup) (hd : d ≠ [])
    (hh : (xs.filter (fun y => f y = l)).head? = d.head?) : xs.filter (fun y => f y = l) = d := by
  cases d with
  | nil => exact absurd rfl hd
  | cons x d =>
    obtain ⟨pre, hp⟩ := h x rfl
    have hx : x ∈ xs.filter (fun y => f y = l) := List.mem_of_head? hh
    have hfx : f x = l := by simpa using (List.mem_filter.1 hx).2
    rw [hfx] at hp
    cases pre with
    | nil => exact hp
    | cons a pre =>
      rw [hp] at hh
      simp only [List.cons_append, List.head?_cons, Option.some.injEq] at hh
      have := hn.filter (fun y => decide (f y = l))
      rw [hp, hh] at this
      exact absurd (by simp) (List.nodup_cons.1 this).1

/-- `W'` is `W`, or `W` with `e` put in somewhere. -/
def Ins (e : Nat) (W W' : List Nat) : Prop := W' = W ∨ ∃ A B, W = A ++ B ∧ W' = A ++ e :: B

theorem Ins.sub {e : Nat} {W W' : List Nat} (h : Ins e W W') {x : Nat} (hx : x ∈ W) : x ∈ W' := by
  rcases h with rfl | ⟨A, B, rfl, rfl⟩
  · exact hx
  · simp only [List.mem_append, List.mem_cons] at hx ⊢; grind

theorem Ins.mem {e : Nat} {W W' : List Nat} (h : Ins e W W') {x : Nat} (hx : x ∈ W') : x ∈ W ∨ x = e := by
  rcases h with rfl | ⟨A, B, rfl, rfl⟩
  · exact .inl hx
  · simp only [List.mem_append, List.mem_cons] at hx ⊢; grind

theorem Ins.nodup {e : Nat} {W W' : List Nat} (h : Ins e W W') (hn : W.Nodup) (he : e ∉ W) : W'.Nodup := by
  rcases h with rfl | ⟨A, B, rfl, rfl⟩
  · exact hn
  · rw [List.perm_middle.nodup_iff]; exact List.nodup_cons.2 ⟨he, hn⟩

theorem Ins.append {e : Nat} {W W' : List Nat} (A : List Nat) (h : Ins e W W') : Ins e (A ++ W) (A ++ W') := by
  rcases h with rfl | ⟨B, C, rfl, rfl⟩
  · exact .inl rfl
  · exact .inr ⟨A ++ B, C, by simp, by simp⟩

theorem ext_other {f : Nat → String} {e : Nat} {d : List Nat} (h : ∀ x, d.head? = some x → f x ≠ f e) : ext f e d = d := by
  cases d with
  | nil => rfl
  | cons x d => simp only [ext, if_neg (h x rfl)]

theorem map_ext_other {f : Nat → String} {e : Nat} {cs : List (List Nat)}
    (h : ∀ d ∈ cs, ∀ x, d.head? = some x → f x ≠ f e) : cs.map (ext f e) = cs := by
  rw [show cs = cs.map id by simp, List.map_map]
  apply List.map_congr_left
  intro d hd
  exact ext_other (h d (by simpa using hd))

theorem ext_ins {f : Nat → String} {xs : List Nat} {e : Nat} : ∀ {cs : List (List Nat)}, (∀ d ∈ cs, Suff f xs d) →
    cs.flatten.Nodup → Ins e cs.flatten (cs.map (ext f e)).flatten
  | [], _, _ => .inl rfl
  | d :: cs, h, hn => by
    simp only [List.flatten_cons, List.map_cons] at hn ⊢
    by_cases hd : ∃ x, d.head? = some x ∧ f x = f e
    · obtain ⟨x, hx, hf⟩ := hd
      have : cs.map (ext f e) = cs := by
        apply map_ext_other
        intro c hc y hy hfy
        obtain ⟨z, hz1, hz2⟩ := (h d (by simp)).meet (h c (by simp [hc])) hx hy (hf.trans hfy.symm)
        rw [List.nodup_append] at hn
        exact hn.2.2 z hz1 z (List.mem_flatten.2 ⟨c, hc, hz2⟩) rfl
      rw [this]
      cases d with
      | nil => simp at hx
      | cons y d =>
        simp only [List.head?_cons, Option.some.injEq] at hx
        subst hx
        refine .inr ⟨y :: d, cs.flatten, rfl, ?_⟩
        simp [ext, hf]
    · rw [ext_other (fun x hx hf => hd ⟨x, hx, hf⟩)]
      rw [List.nodup_append] at hn
      exact (ext_ins (fun c hc => h c (by simp [hc])) hn.2.1).append d

/-- The only edge of a map has no successor. -/
def Alone (P : Slot) (xs : List Nat) : Prop := xs.length = 1 → ∀ x ∈ xs, (P x).next = none

theorem Suff.next {P : Slot} {f : Nat → String} {em : EdgeMap} {xs d : List Nat} {x : Nat} (h : EMRep P f em xs)
    (ha : Alone P xs) (hs : Suff f xs (x :: d)) : (P x).next = d.head? := by
  obtain ⟨pre, hp⟩ := hs x rfl
  have hx := (hs.mem (y := x) (by simp)).1
  by_cases h2 : 2 ≤ xs.length
  · have hl := h.lrep h2
    cases hg : em.lists.get (f x) with
    | none =>
      have := hl.getNone _ hg
      rw [hp] at this; simp at this
    | some el =>
      have hd := (hl.getSome _ _ hg).2.seg
      rw [hp, seg_append] at hd
      simpa using hd.2.2.1
  · have h1 : xs.length = 1 := by
      have : xs ≠ [] := by rintro rfl; simp at hx
      have : 0 < xs.length := List.length_pos_iff.2 this
      omega
    rw [ha h1 x hx]
    have hle : (pre ++ x :: d).length ≤ 1 := by rw [← hp, ← h1]; exact List.length_filter_le _ _
    have : d = [] := by
      simp only [List.length_append, List.length_cons] at hle
      exact List.eq_nil_of_length_eq_zero (by omega)
    rw [this]; rfl

/-- The edges that the iterator would yield, in this order, if the map stayed as it is. -/
def Pend (P : Slot) (f : Nat → String) (xs : List Nat) (h : HMap) : EdgeIt → List Nat → Prop
  | .empty, W => W = []
  | .single e done, W => if done then W = [] else ∃ x, e = some x ∧ W = [x]
  | .list nx, W => Alone P xs ∧ nx = W.head? ∧ Suff f xs W
  | .all g nl nx, W => Alone P xs ∧ g ≤ h.gen ∧ (g = h.gen → 2 ≤ xs.length) ∧ ∃ c rest cs, nx = c.head? ∧ nl = rest.head? ∧
      rest <:+ h.order g ∧ List.Forall₂ (fun a d => d ≠ [] ∧ (h.ell a).head = d.head?) rest cs ∧
      (∀ d ∈ c :: cs, Suff f xs d) ∧ W = (c :: cs).flatten
  | .any g ls cur, W => Alone P xs ∧ g ≤ h.gen ∧ (g = h.gen → 2 ≤ xs.length) ∧ ls.Nodup ∧ ∃ c cs, cur.join = c.head? ∧
      List.Forall₂ (fun l d => match (h.labelMap g).get l with
        | none => d = []
        | some a => d ≠ [] ∧ (h.ell a).head = d.head?) ls cs ∧
      (∀ d ∈ c :: cs, Suff f xs d) ∧ W = (c :: cs).flatten

/-- The iterator reads pointers of edges or label lists. -/
def EdgeIt.walks : EdgeIt → Bool
  | .list _ | .all _ _ _ | .any _ _ _ => true
  | _ => false

theorem Pend.alone {P : Slot} {f : Nat → String} {xs W : List Nat} {h : HMap} {it : EdgeIt} (hp : Pend P f xs h it W)
    (hw : it.walks = true) : Alone P xs := by
  cases it with
  | empty => cases hw
  | single x done => cases hw
  | list nx => exact hp.1
  | all g nl nx => exact hp.1
  | any g ls cur => exact hp.1

/-- The labels of the new edges that the iterator may come to, apart from those of edges that are pending. -/
def Wants : EdgeIt → String → Prop
  | .all _ _ _, _ => True
  | .any _ ls _, l => l ∈ ls
  | _, _ => False

theorem ext_wants {f : Nat → String} {e : Nat} {cs : List (List Nat)} (h : e ∈ (cs.map (ext f e)).flatten) :
    e ∈ cs.flatten ∨ ∃ x ∈ cs.flatten, f x = f e := by
  obtain ⟨d', hd', he⟩ := List.mem_flatten.1 h
  obtain ⟨d, hd, rfl⟩ := List.mem_map.1 hd'
  cases d with
  | nil => simp [ext] at he
  | cons x d =>
    by_cases hx : f x = f e
    · exact .inr ⟨x, List.mem_flatten.2 ⟨_, hd, by simp⟩, hx⟩
    · simp only [ext, if_neg hx] at he
      exact .inl (List.mem_flatten.2 ⟨_, hd, he⟩)

theorem succIn_suffix : ∀ {l r : List Nat} {a : Nat}, l.Nodup → a :: r <:+ l → succIn l a = r.head?
  | [], r, a, _, h => by simp at h
  | b :: l, r, a, hn, h => by
    rw [List.suffix_cons_iff] at h
    have hb := List.nodup_cons.1 hn
    rcases h with h | h
    · cases h; simp [succIn]
    · have : b ≠ a := by rintro rfl; exact hb.1 (h.subset (by simp))
      rw [succIn, if_neg this]
      exact succIn_suffix hb.2 h

/-- `Next`. -/
theorem Pend.adv {P : Slot} {f : Nat → String} {xs W : List Nat} {h : HMap} {it : EdgeIt} (w : h.Wf)
    (hr : EMRep P f h.abs xs) (hp : Pend P f xs h it W) :
    ∃ it', h.adv P it = some (W.head?, it') ∧ Pend P f xs h it' W.tail ∧ ∀ l, Wants it' l → Wants it l := by
  cases it with
  | empty => simp only [Pend] at hp; subst hp; exact ⟨.empty, rfl, rfl, fun _ h => h⟩
  | single e done =>
    cases done with
    | true => simp only [Pend, if_true] at hp; subst hp; exact ⟨.single e true, rfl, by simp [Pend], fun _ h => h⟩
    | false =>
      simp only [Pend, Bool.false_eq_true, if_false] at hp
      obtain ⟨x, rfl, rfl⟩ := hp
      exact ⟨.single (some x) true, rfl, by simp [Pend], fun _ h => h⟩
  | list nx =>
    obtain ⟨ha, rfl, hs⟩ := hp
    cases W with
    | nil => exact ⟨_, rfl, ⟨ha, rfl, Suff.nil _ _⟩, fun _ h => h⟩
    | cons x W =>
      refine ⟨_, rfl, ⟨ha, ?_, hs.tail⟩, fun _ h => h⟩
      exact hs.next hr ha
  | all g nl nx =>
    obtain ⟨ha, hg, h2, c, rest, cs, rfl, rfl, hsuf, hf, hs, rfl⟩ := hp
    cases c with
    | cons x c =>
      refine ⟨.all g rest.head? (P x).next, rfl, ⟨ha, hg, h2, c, rest, cs, ?_, rfl, hsuf, hf, ?_, rfl⟩, fun _ h => h⟩
      · exact (hs (x :: c) (by simp)).next hr ha
      · intro d hd
        rcases List.mem_cons.1 hd with rfl | hd
        · exact (hs (x :: d) (by simp)).tail
        · exact hs d (by simp [hd])
    | nil =>
      cases hf with
      | nil => exact ⟨.all g none none, rfl, ⟨ha, hg, h2, [], [], [], rfl, rfl, by simp, .nil, by simpa using Suff.nil _ _, rfl⟩, fun _ h => h⟩
      | @cons a d rest cs had hf =>
        obtain ⟨hd, hhd⟩ := had
        cases d with
        | nil => exact absurd rfl hd
        | cons x d =>
          have hso := succIn_suffix (w.ord g) hsuf
          have hsd := hs (x :: d) (by simp)
          refine ⟨.all g rest.head? (P x).next, ?_, ⟨ha, hg, h2, d, rest, cs, ?_, rfl, ?_, hf, ?_, ?_⟩, fun _ h => h⟩
          · simp only [HMap.adv, List.head?_nil, List.head?_cons, HMap.allNext, hso]
            rw [hhd]
            simp only [List.head?_cons]
            cases hlen : (h.order g).length with
            | zero => simp [HMap.allNext]
            | succ k => simp [HMap.allNext]
          · exact hsd.next hr ha
          · exact (List.suffix_cons a rest).trans hsuf
          · intro y hy
            rcases List.mem_cons.1 hy with rfl | hy
            · exact hsd.tail
            · exact hs y (by simp [hy])
          · simp
  | any g ls cur =>
    obtain ⟨ha, hg, h2, hls, c, cs, hc, hf, hs, rfl⟩ := hp
    cases c with
    | cons x c =>
      have hcur : cur = some (some x) := by
        cases cur with
        | none => simp at hc
        | some y => simp only [Option.join_some, List.head?_cons] at hc; rw [hc]
      subst hcur
      refine ⟨.any g ls (some (P x).next), rfl, ⟨ha, hg, h2, hls, c, cs, ?_, hf, ?_, rfl⟩, fun _ h => h⟩
      · exact (hs (x :: c) (by simp)).next hr ha
      · intro d hd
        rcases List.mem_cons.1 hd with rfl | hd
        · exact (hs (x :: d) (by simp)).tail
        · exact hs d (by simp [hd])
    | nil =>
      have hadv : h.adv P (.any g ls cur) = some (h.anyNext P g ls) := by
        cases cur with
        | none => rfl
        | some y =>
          cases y with
          | none => rfl
          | some x => simp at hc
      rw [hadv]
      clear hadv hc
      simp only [List.flatten_cons, List.nil_append]
      have hs' : ∀ d ∈ cs, Suff f xs d := fun d hd => hs d (by simp [hd])
      clear hs
      induction hf with
      | nil =>
        exact ⟨_, rfl, ⟨ha, hg, h2, List.nodup_nil, [], [], rfl, .nil, by simpa using Suff.nil _ _, rfl⟩, fun _ h => h⟩
      | @cons l d ls cs hld hf ih =>
        have hls' := (List.nodup_cons.1 hls).2
        cases hq : (h.labelMap g).get l with
        | none =>
          simp only [hq] at hld
          subst hld
          simp only [HMap.anyNext, hq, List.flatten_cons, List.nil_append]
          obtain ⟨it', i1, i2, i3⟩ := ih hls' (fun d hd => hs' d (by simp [hd]))
          exact ⟨it', i1, i2, fun l hl => List.mem_cons_of_mem _ (i3 l hl)⟩
        | some a =>
          simp only [hq] at hld
          obtain ⟨hd, hhd⟩ := hld
          cases d with
          | nil => exact absurd rfl hd
          | cons x d =>
            have hsd := hs' (x :: d) (by simp)
            simp only [List.head?_cons] at hhd
            refine ⟨.any g ls (some (P x).next), ?_, ⟨ha, hg, h2, hls', d, cs, ?_, hf, ?_, ?_⟩, fun _ h => List.mem_cons_of_mem _ h⟩
            · simp only [HMap.anyNext, hq, hhd]; rfl
            · exact hsd.next hr ha
            · intro y hy
              rcases List.mem_cons.1 hy with rfl | hy
              · exact hsd.tail
              · exact hs' y (by simp [hy])
            · simp

/-! ## Adding an edge -/

theorem EList.add_head {P : Slot} {l : EList} {e x : Nat} (h : l.head = some x) : (l.add P e).2.head = some x := by
  simp [EList.add, h]

/-- What `doAdd` does to the objects that exist. -/
theorem HMap.doAdd_old {P : Slot} {h : HMap} (lbl : String) (e : Nat) :
    (h.doAdd P lbl e).2.gen = h.gen ∧ h.free ≤ (h.doAdd P lbl e).2.free ∧
    (∀ g, g ≠ h.gen → (h.doAdd P lbl e).2.order g = h.order g ∧ (h.doAdd P lbl e).2.labelMap g = h.labelMap g) ∧
    (∀ a x, a < h.free → (h.ell a).head = some x → ((h.doAdd P lbl e).2.ell a).head = some x) := by
  unfold HMap.doAdd
  cases hg : (h.labelMap h.gen).get lbl with
  | none =>
    refine ⟨rfl, Nat.le_succ _, ?_, ?_⟩
    · intro g hgn; simp only [upd_other _ _ hgn]; exact ⟨trivial, trivial⟩
    · intro a x ha hx
      simp only [upd_other _ _ (Nat.ne_of_lt ha), hx]
  | some b =>
    refine ⟨rfl, Nat.le_refl _, fun _ _ => ⟨rfl, rfl⟩, ?_⟩
    intro a x _ hx
    simp only [upd_apply]
    split
    · rename_i hh; subst hh; exact EList.add_head hx
    · exact hx

theorem HMap.doAdd_gen {P : Slot} {h : HMap} (lbl : String) (e : Nat) :
    ((h.doAdd P lbl e).2.order h.gen = h.order h.gen ∧ (h.doAdd P lbl e).2.labelMap h.gen = h.labelMap h.gen) ∨
    ((h.labelMap h.gen).get lbl = none ∧ (h.doAdd P lbl e).2.order h.gen = h.order h.gen ++ [h.free] ∧
      (h.doAdd P lbl e).2.labelMap h.gen = (h.labelMap h.gen).set lbl h.free ∧
      ((h.doAdd P lbl e).2.ell h.free).head = some e) := by
  unfold HMap.doAdd
  cases hg : (h.labelMap h.gen).get lbl with
  | none => right; simp [EList.add]
  | some b => left; exact ⟨rfl, rfl⟩

/-- What `add` does to a generation that an iterator uses. -/
theorem HMap.add_old {P P' : Slot} {f : Nat → String} {h h' : HMap} {e g : Nat} {m : Nat} (hn : h.n = m)
    (hg : g ≤ h.gen) (h2 : g = h.gen → 2 ≤ m) (hadd : h.add P f e = some (P', h')) :
    g ≤ h'.gen ∧ (g = h'.gen → 2 ≤ m + 1) ∧
    (∀ a x, a < h.free → (h.ell a).head = some x → (h'.ell a).head = some x) ∧
    ((h'.order g = h.order g ∧ h'.labelMap g = h.labelMap g) ∨
      (2 ≤ m ∧ g = h.gen ∧ (h.labelMap g).get (f e) = none ∧ h'.order g = h.order g ++ [h.free] ∧
        h'.labelMap g = (h.labelMap g).set (f e) h.free ∧ (h'.ell h.free).head = some e)) := by
  unfold HMap.add at hadd
  by_cases h0 : h.n = 0
  · rw [if_pos h0] at hadd
    simp only [Option.some.injEq, Prod.mk.injEq] at hadd
    obtain ⟨rfl, rfl⟩ := hadd
    exact ⟨hg, fun hh => by have := h2 hh; omega, fun a x _ hx => hx, .inl ⟨rfl, rfl⟩⟩
  · rw [if_neg h0] at hadd
    by_cases h1 : h.n = 1
    · rw [if_pos h1] at hadd
      cases ho : h.only with
      | none => rw [ho] at hadd; cases hadd
      | some o =>
        rw [ho] at hadd
        simp only [Option.some.injEq, Prod.mk.injEq] at hadd
        obtain ⟨-, rfl⟩ := hadd
        have hgn : g ≠ h.gen + 1 := by omega
        obtain ⟨a1, a2, a3, a4⟩ := HMap.doAdd_old (P := P) (h := h.lazyInit) (f o) o
        obtain ⟨r, hr⟩ : ∃ r, h.lazyInit.doAdd P (f o) o = r := ⟨_, rfl⟩
        rw [hr] at a1 a2 a3 a4
        simp only [hr]
        obtain ⟨b1, b2, b3, b4⟩ := HMap.doAdd_old (P := r.1) (h := { r.2 with only := none }) (f e) e
        have a1' : r.2.gen = h.gen + 1 := a1
        have b1' : (HMap.doAdd r.1 { r.2 with only := none } (f e) e).2.gen = h.gen + 1 := by rw [b1]; exact a1'
        refine ⟨?_, ?_, ?_, .inl ?_⟩
        · show g ≤ (HMap.doAdd r.1 { r.2 with only := none } (f e) e).2.gen
          rw [b1']; omega
        · intro hh
          exfalso
          have : g = h.gen + 1 := by rw [hh]; exact b1'
          exact hgn this
        · intro a x ha hx
          exact b4 a x (Nat.lt_of_lt_of_le ha a2) (a4 a x ha hx)
        · have c1 := b3 g (by show g ≠ r.2.gen; rw [a1']; exact hgn)
          have c2 := a3 g hgn
          have c3 : h.lazyInit.order g = h.order g ∧ h.lazyInit.labelMap g = h.labelMap g := by
            simp [HMap.lazyInit, upd_other _ _ hgn]
          exact ⟨c1.1.trans (c2.1.trans c3.1), c1.2.trans (c2.2.trans c3.2)⟩
    · rw [if_neg h1] at hadd
      simp only [Option.some.injEq, Prod.mk.injEq] at hadd
      obtain ⟨-, rfl⟩ := hadd
      obtain ⟨a1, a2, a3, a4⟩ := HMap.doAdd_old (P := P) (h := h) (f e) e
      refine ⟨by rw [a1]; exact hg, by omega, a4, ?_⟩
      by_cases hgg : g = h.gen
      · rcases HMap.doAdd_gen (P := P) (h := h) (f e) e with hh | ⟨c1, c2, c3, c4⟩
        · left; rw [hgg]; exact hh
        · right; rw [hgg]; exact ⟨by omega, rfl, c1, c2, c3, c4⟩
      · exact .inl (a3 g hgg)

theorem forall₂_map_right {α β γ : Type} {R : α → β → Prop} {S : α → γ → Prop} {φ : β → γ} : ∀ {as : List α} {bs : List β},
    List.Forall₂ R as bs → (∀ a b, a ∈ as → R a b → S a (φ b)) → List.Forall₂ S as (bs.map φ)
  | _, _, .nil, _ => .nil
  | _, _, .cons h t, k => .cons (k _ _ (by simp) h) (forall₂_map_right t (fun a b ha => k a b (by simp [ha])))

theorem forall₂_imp_mem {α β : Type} {R S : α → β → Prop} : ∀ {as : List α} {bs : List β},
    List.Forall₂ R as bs → (∀ a b, a ∈ as → b ∈ bs → R a b → S a b) → List.Forall₂ S as bs
  | _, _, .nil, _ => .nil
  | _, _, .cons h t, k => .cons (k _ _ (by simp) (by simp) h) (forall₂_imp_mem t (fun a b ha hb => k a b (by simp [ha]) (by simp [hb])))

theorem forall₂_snoc {α β : Type} {R : α → β → Prop} {a : α} {b : β} : ∀ {as : List α} {bs : List β},
    List.Forall₂ R as bs → R a b → List.Forall₂ R (as ++ [a]) (bs ++ [b])
  | _, _, .nil, h => .cons h .nil
  | _, _, .cons h t, k => .cons h (forall₂_snoc t k)

theorem Alone.add {P P' : Slot} {f : Nat → String} {h h' : HMap} {xs : List Nat} {e : Nat} (hn : h.n = xs.length)
    (he : (P e).next = none) (hadd : h.add P f e = some (P', h')) : Alone P' (xs ++ [e]) := by
  intro h1 x hx
  have hxs : xs = [] := by
    simp only [List.length_append, List.length_cons, List.length_nil] at h1
    exact List.eq_nil_of_length_eq_zero (by omega)
  subst hxs
  have h0 : h.n = 0 := by simpa using hn
  simp only [HMap.add, h0, if_true, Option.some.injEq, Prod.mk.injEq] at hadd
  obtain ⟨rfl, -⟩ := hadd
  simp only [List.nil_append, List.mem_singleton] at hx
  rw [hx]; exact he

/-- The label of a new edge is new if its list is. -/
theorem EMRep.fresh_label {P : Slot} {f : Nat → String} {h : HMap} {xs : List Nat} (hr : EMRep P f h.abs xs) {l : String}
    (h2 : 2 ≤ xs.length) (hg : (h.labelMap h.gen).get l = none) {d : List Nat} (hs : Suff f xs d) :
    ∀ x, d.head? = some x → f x ≠ l := by
  intro x hx hf
  have : AMap.get h.abs.lists l = none := by
    show AMap.get (deref h.ell (h.labelMap h.gen)) l = none
    rw [get_deref, hg]; rfl
  have hnil := hr.getNone h2 l this
  have hxm := (hs.mem (List.mem_of_head? hx)).1
  have : x ∈ xs.filter (fun y => f y = l) := by simp [hxm, hf]
  rw [hnil] at this; simp at this

theorem Pend.add {P P' : Slot} {f : Nat → String} {xs W : List Nat} {h h' : HMap} {it : EdgeIt} {e : Nat} (w : h.Wf)
    (hr : EMRep P f h.abs xs) (hn : W.Nodup) (he : it.walks = true → (P e).next = none) (hadd : h.add P f e = some (P', h'))
    (hp : Pend P f xs h it W) : ∃ W', Ins e W W' ∧ Pend P' f (xs ++ [e]) h' it W' ∧
      (e ∈ W' → e ∈ W ∨ Wants it (f e) ∨ ∃ x ∈ W, f x = f e) := by
  have hlen : h.n = xs.length := hr.n
  have hal : it.walks = true → Alone P' (xs ++ [e]) := fun hw => Alone.add hlen (he hw) hadd
  have hl2 : (xs ++ [e]).length = xs.length + 1 := by simp
  cases it with
  | empty => simp only [Pend] at hp; subst hp; exact ⟨[], .inl rfl, rfl, .inl⟩
  | single x done => exact ⟨W, .inl rfl, hp, .inl⟩
  | list nx =>
    obtain ⟨ha, hx, hs⟩ := hp
    refine ⟨ext f e W, ?_, ⟨hal rfl, ?_, hs.add⟩, ?_⟩
    · have := ext_ins (e := e) (f := f) (xs := xs) (cs := [W]) (by simpa using hs) (by simpa using hn)
      simpa using this
    · rw [head_ext]; exact hx
    · intro hh
      have := ext_wants (f := f) (e := e) (cs := [W]) (by simpa using hh)
      simp only [List.flatten_cons, List.flatten_nil, List.append_nil] at this
      exact this.imp_right .inr
  | all g nl nx =>
    obtain ⟨ha, hg, h2, c, rest, cs, hx, hnl, hsuf, hf, hs, rfl⟩ := hp
    obtain ⟨b1, b2, b3, b4⟩ := HMap.add_old hlen hg h2 hadd
    have hins := ext_ins (e := e) hs hn
    have hsm : ∀ d ∈ (c :: cs).map (ext f e), Suff f (xs ++ [e]) d := by
      intro d hd
      obtain ⟨d0, hd0, rfl⟩ := List.mem_map.1 hd
      exact (hs d0 hd0).add
    have hheads : List.Forall₂ (fun a d => d ≠ [] ∧ (h'.ell a).head = d.head?) rest (cs.map (ext f e)) := by
      refine forall₂_map_right hf ?_
      intro a d ha hd
      refine ⟨fun hh => hd.1 (ext_eq_nil.1 hh), ?_⟩
      rw [head_ext]
      cases d with
      | nil => exact absurd rfl hd.1
      | cons x d => exact b3 a x (w.lt g a (hsuf.subset ha)) hd.2
    rcases b4 with ⟨b5, b6⟩ | ⟨c0, rfl, c1, c2, c3, c4⟩
    · refine ⟨_, hins, ⟨hal rfl, b1, by rw [hl2]; exact b2, ext f e c, rest, cs.map (ext f e), ?_, hnl, ?_, hheads, hsm, rfl⟩,
        fun _ => .inr (.inl trivial)⟩
      · rw [head_ext]; exact hx
      · rw [b5]; exact hsuf
    · have hsame : (c :: cs).map (ext f e) = c :: cs := map_ext_other (fun d hd => hr.fresh_label c0 c1 (hs d hd))
      rw [List.map_cons, List.cons.injEq] at hsame
      rw [hsame.2] at hheads
      have hsm' : ∀ d ∈ c :: cs, Suff f (xs ++ [e]) d := by
        intro d hd
        apply hsm
        rw [List.map_cons, hsame.1, hsame.2]; exact hd
      cases rest with
      | nil =>
        cases hf
        refine ⟨_, .inl rfl, ⟨hal rfl, b1, by rw [hl2]; exact b2, c, [], [], hx, hnl, by simp, .nil, hsm', rfl⟩, .inl⟩
      | cons a rest =>
        refine ⟨(c :: cs).flatten ++ [e], .inr ⟨(c :: cs).flatten, [], by simp, rfl⟩, ⟨hal rfl, b1, by rw [hl2]; exact b2,
          c, a :: rest ++ [h.free], cs ++ [[e]], hx, by simpa using hnl, ?_, ?_, ?_, by simp⟩, fun _ => .inr (.inl trivial)⟩
        · rw [c2]
          obtain ⟨pre, hpre⟩ := hsuf
          exact ⟨pre, by rw [← hpre]; simp⟩
        · exact forall₂_snoc hheads ⟨by simp, by simpa using c4⟩
        · intro d hd
          rw [← List.cons_append, List.mem_append, List.mem_singleton] at hd
          rcases hd with hd | rfl
          · exact hsm' d hd
          · intro x hx
            simp only [List.head?_cons, Option.some.injEq] at hx
            subst hx
            exact ⟨xs.filter (fun y => f y = f e), by simp⟩
  | any g ls cur =>
    obtain ⟨ha, hg, h2, hls, c, cs, hc, hf, hs, rfl⟩ := hp
    obtain ⟨b1, b2, b3, b4⟩ := HMap.add_old hlen hg h2 hadd
    have hins := ext_ins (e := e) hs hn
    have hsm : ∀ d ∈ (c :: cs).map (ext f e), Suff f (xs ++ [e]) d := by
      intro d hd
      obtain ⟨d0, hd0, rfl⟩ := List.mem_map.1 hd
      exact (hs d0 hd0).add
    rcases b4 with ⟨b5, b6⟩ | ⟨c0, rfl, c1, c2, c3, c4⟩
    · refine ⟨_, hins, ⟨hal rfl, b1, by rw [hl2]; exact b2, hls, ext f e c, cs.map (ext f e), ?_, ?_, hsm, rfl⟩,
        fun hh => (ext_wants (cs := c :: cs) hh).imp_right .inr⟩
      · rw [head_ext]; exact hc
      · refine forall₂_map_right hf ?_
        intro l d _ hd
        rw [b6]
        cases hq : (h.labelMap g).get l with
        | none => simp only [hq] at hd ⊢; rw [hd]; rfl
        | some a =>
          simp only [hq] at hd ⊢
          refine ⟨fun hh => hd.1 (ext_eq_nil.1 hh), ?_⟩
          rw [head_ext]
          cases d with
          | nil => exact absurd rfl hd.1
          | cons x d => exact b3 a x (w.lt g a (w.addr hq)) hd.2
    · have hsame : (c :: cs).map (ext f e) = c :: cs := map_ext_other (fun d hd => hr.fresh_label c0 c1 (hs d hd))
      rw [List.map_cons, List.cons.injEq] at hsame
      have hsm' : ∀ d ∈ c :: cs, Suff f (xs ++ [e]) d := by
        intro d hd
        apply hsm
        rw [List.map_cons, hsame.1, hsame.2]; exact hd
      have hse : Suff f (xs ++ [e]) [e] := by
        intro x hx
        simp only [List.head?_cons, Option.some.injEq] at hx
        subst hx
        exact ⟨xs.filter (fun y => f y = f e), by simp⟩
      -- the label lists that come later
      have key : ∀ {ls : List String} {cs : List (List Nat)}, ls.Nodup →
          List.Forall₂ (fun l d => match (h.labelMap h.gen).get l with
            | none => d = []
            | some a => d ≠ [] ∧ (h.ell a).head = d.head?) ls cs →
          ∃ cs', List.Forall₂ (fun l d => match (h'.labelMap h.gen).get l with
            | none => d = []
            | some a => d ≠ [] ∧ (h'.ell a).head = d.head?) ls cs' ∧ Ins e cs.flatten cs'.flatten ∧
            ∀ d ∈ cs', d ∈ cs ∨ (d = [e] ∧ f e ∈ ls) := by
        have one : ∀ l d, l ≠ f e → (match (h.labelMap h.gen).get l with
            | none => d = []
            | some a => d ≠ [] ∧ (h.ell a).head = d.head?) → (match (h'.labelMap h.gen).get l with
            | none => d = []
            | some a => d ≠ [] ∧ (h'.ell a).head = d.head?) := by
          intro l d hl hd
          have : (h'.labelMap h.gen).get l = (h.labelMap h.gen).get l := by rw [c3, AMap.get_set, if_neg hl]
          rw [this]
          cases hq : (h.labelMap h.gen).get l with
          | none => simp only [hq] at hd ⊢; exact hd
          | some a =>
            simp only [hq] at hd ⊢
            refine ⟨hd.1, ?_⟩
            cases d with
            | nil => exact absurd rfl hd.1
            | cons x d => exact b3 a x (w.lt _ a (w.addr hq)) hd.2
        intro ls cs hls hf
        induction hf with
        | nil => exact ⟨[], .nil, .inl rfl, by simp⟩
        | @cons l d ls cs hld hf ih =>
          have hl := List.nodup_cons.1 hls
          by_cases hle : l = f e
          · subst hle
            simp only [c1] at hld
            subst hld
            refine ⟨[e] :: cs, .cons ?_ ?_, .inr ⟨[], cs.flatten, by simp, by simp⟩, ?_⟩
            · have : (h'.labelMap h.gen).get (f e) = some h.free := by rw [c3, AMap.get_set, if_pos rfl]
              simp only [this]
              exact ⟨by simp, by simpa using c4⟩
            · refine forall₂_imp_mem hf ?_
              intro l d hl' _ hd
              exact one l d (fun hh => hl.1 (hh ▸ hl')) hd
            · intro d hd
              rcases List.mem_cons.1 hd with rfl | hd
              · exact .inr ⟨rfl, by simp⟩
              · exact .inl (by simp [hd])
          · obtain ⟨cs', i1, i2, i3⟩ := ih hl.2
            refine ⟨d :: cs', .cons (one l d hle hld) i1, by simpa using i2.append d, ?_⟩
            intro d' hd'
            rcases List.mem_cons.1 hd' with rfl | hd'
            · exact .inl (by simp)
            · rcases i3 d' hd' with h | h
              · exact .inl (by simp [h])
              · exact .inr ⟨h.1, by simp [h.2]⟩
      obtain ⟨cs', i1, i2, i3⟩ := key hls hf
      refine ⟨(c :: cs').flatten, by simpa using i2.append c, ⟨hal rfl, b1, by rw [hl2]; exact b2, hls, c, cs', hc, i1, ?_, rfl⟩, ?_⟩
      · intro d hd
        rcases List.mem_cons.1 hd with rfl | hd
        · exact hsm' _ (by simp)
        · rcases i3 d hd with h | ⟨rfl, -⟩
          · exact hsm' d (by simp [h])
          · exact hse
      · intro hh
        rw [List.flatten_cons, List.mem_append] at hh
        rcases hh with hh | hh
        · exact .inl (by simp [hh])
        · obtain ⟨d, hd, he'⟩ := List.mem_flatten.1 hh
          rcases i3 d hd with h | ⟨-, h⟩
          · exact .inl (List.mem_flatten.2 ⟨d, by simp [h], he'⟩)
          · exact .inr (.inl h)

/-! ## Removing an edge that was visited -/

/-- What `remove` does to a generation that an iterator uses. -/
theorem HMap.remove_old {P : Slot} {f : Nat → String} {h : HMap} {e g a0 : Nat} {m : Nat} (hn : h.n = m)
    (hg : g ≤ h.gen) (h2 : g = h.gen → 2 ≤ m) (hm : 2 ≤ m) (ha : (h.labelMap h.gen).get (f e) = some a0) :
    g ≤ (h.remove P f e).2.gen ∧ (g = (h.remove P f e).2.gen → 2 ≤ m - 1) ∧
    (∀ a, a ≠ a0 → (h.remove P f e).2.ell a = h.ell a) ∧
    ((h.remove P f e).2.order g = h.order g ∨
      (g = h.gen ∧ (h.remove P f e).2.order g = (h.order g).filter (· ≠ a0))) ∧
    ((h.remove P f e).2.labelMap g = h.labelMap g ∨
      (g = h.gen ∧ (h.remove P f e).2.labelMap g = (h.labelMap g).del (f e))) := by
  have h0 : ¬ h.n = 0 := by omega
  have h1 : ¬ h.n = 1 := by omega
  unfold HMap.remove
  simp only [if_neg h0, if_neg h1, ha]
  obtain ⟨r, hr⟩ : ∃ r, EList.remove P (h.ell a0) e = r := ⟨_, rfl⟩
  simp only [hr]
  obtain ⟨k, hk⟩ : ∃ k : HMap, k = ({ h with ell := upd h.ell a0 r.2 } : HMap).dropEmpty (f e) a0 := ⟨_, rfl⟩
  have k1 : k.gen = h.gen ∧ k.n = h.n ∧ k.ell = upd h.ell a0 r.2 ∧
      (k.order g = h.order g ∨ (g = h.gen ∧ k.order g = (h.order g).filter (· ≠ a0))) ∧
      (k.labelMap g = h.labelMap g ∨ (g = h.gen ∧ k.labelMap g = (h.labelMap g).del (f e))) := by
    rw [hk]
    unfold HMap.dropEmpty
    split
    · refine ⟨rfl, rfl, rfl, ?_, ?_⟩
      · by_cases hgg : g = h.gen
        · right; exact ⟨hgg, by rw [hgg]; exact upd_same _ _ _⟩
        · left; exact upd_other _ _ hgg
      · by_cases hgg : g = h.gen
        · right; exact ⟨hgg, by rw [hgg]; exact upd_same _ _ _⟩
        · left; exact upd_other _ _ hgg
    · exact ⟨rfl, rfl, rfl, .inl rfl, .inl rfl⟩
  rw [← hk]
  obtain ⟨k2, k3, k4, k5, k6⟩ := k1
  unfold HMap.shrink
  by_cases hn1 : k.n - 1 = 1
  · rw [if_pos hn1]
    have hgn : g ≠ k.gen + 1 := by omega
    have aux : ∀ z : HMap, z.gen = k.gen → z.ell = k.ell → z.order = k.order → z.labelMap = k.labelMap →
        g ≤ z.lazyInit.gen ∧ (g = z.lazyInit.gen → 2 ≤ m - 1) ∧ (∀ a, a ≠ a0 → z.lazyInit.ell a = h.ell a) ∧
        (z.lazyInit.order g = h.order g ∨ (g = h.gen ∧ z.lazyInit.order g = (h.order g).filter (· ≠ a0))) ∧
        (z.lazyInit.labelMap g = h.labelMap g ∨ (g = h.gen ∧ z.lazyInit.labelMap g = (h.labelMap g).del (f e))) := by
      intro z z1 z2 z3 z4
      have hgz : g ≠ z.gen + 1 := by rw [z1]; exact hgn
      simp only [HMap.lazyInit, upd_other _ _ hgz, z2, z3, z4, k4]
      refine ⟨by omega, fun hh => absurd hh hgz, fun a ha => upd_other _ _ ha, k5, k6⟩
    split
    · exact aux _ rfl rfl rfl rfl
    · exact aux _ rfl rfl rfl rfl
  · rw [if_neg hn1]
    refine ⟨?_, ?_, ?_, k5, k6⟩
    · show g ≤ k.gen; rw [k2]; exact hg
    · intro _; have := k3; omega
    · intro a ha; show k.ell a = h.ell a; rw [k4, upd_other _ _ ha]

theorem Alone.remove {P : Slot} {f : Nat → String} {em : EdgeMap} {xs : List Nat} {e : Nat} (hr : EMRep P f em xs) (he : e ∈ xs) :
    Alone (em.remove P f e).1 (xs.erase e) := by
  intro h1 x hx
  have hlen := List.length_erase_of_mem he
  obtain ⟨lists, hL⟩ := (EdgeMap.remove_spec_lists hr he).2.2 (by omega)
  obtain ⟨o, ho⟩ := List.length_eq_one_iff.1 h1
  rw [ho] at hx hL
  simp only [List.mem_singleton] at hx
  subst hx
  cases hg : lists.get (f x) with
  | none => have := hL.getNone _ hg; simp at this
  | some el =>
    have := (hL.getSome _ _ hg).2.seg
    simp only [decide_true, List.filter_cons_of_pos, List.filter_nil, Seg] at this
    simpa using this.2.1

theorem Pend.remove {P : Slot} {f : Nat → String} {xs W : List Nat} {h : HMap} {it : EdgeIt} {e : Nat} (w : h.Wf)
    (hr : EMRep P f h.abs xs) (he : e ∈ xs) (hW : e ∉ W) (hp : Pend P f xs h it W) :
    Pend (h.remove P f e).1 f (xs.erase e) (h.remove P f e).2 it W := by
  have hlen : h.n = xs.length := hr.n
  have hal : Alone (h.remove P f e).1 (xs.erase e) := by
    rw [(HMap.remove_abs w e).2.1]; exact Alone.remove hr he
  have hl2 := List.length_erase_of_mem he
  have hpos : 0 < xs.length := List.length_pos_of_mem he
  -- facts about the map, for the two iterators that refer to it
  have hdec : ∀ g, g ≤ h.gen → (g = h.gen → 2 ≤ xs.length) →
      g ≤ (h.remove P f e).2.gen ∧ (g = (h.remove P f e).2.gen → 2 ≤ (xs.erase e).length) ∧
      (∀ a d, a ∈ h.order g → d ≠ [] → Suff f xs d → e ∉ d → (h.ell a).head = d.head? →
        ((h.remove P f e).2.ell a).head = d.head? ∧ ((h.remove P f e).2.order g = h.order g ∨
          ∃ a0, a ≠ a0 ∧ (h.remove P f e).2.order g = (h.order g).filter (· ≠ a0) ∧ (h.labelMap h.gen).get (f e) = some a0)) ∧
      ((h.remove P f e).2.labelMap g = h.labelMap g ∨
        (g = h.gen ∧ (h.remove P f e).2.labelMap g = (h.labelMap g).del (f e) ∧ ∃ a0, (h.labelMap h.gen).get (f e) = some a0)) := by
    intro g hg h2
    by_cases hm : 2 ≤ xs.length
    · have hgl : AMap.get h.abs.lists (f e) = ((h.labelMap h.gen).get (f e)).map h.ell := get_deref _ _ _
      have hmem : e ∈ xs.filter (fun y => f y = f e) := by simp [he]
      cases ha : (h.labelMap h.gen).get (f e) with
      | none =>
        rw [ha] at hgl
        rw [hr.getNone hm _ hgl] at hmem; simp at hmem
      | some a0 =>
        rw [ha] at hgl
        have hd0 := (hr.getSome hm _ _ hgl).2
        obtain ⟨q1, q2, q3, q4, q5⟩ := HMap.remove_old (P := P) hlen hg h2 hm ha
        refine ⟨q1, by rw [hl2]; exact q2, ?_, ?_⟩
        · intro a d hao hd hs hed hhd
          have hne : a ≠ a0 := by
            rintro rfl
            have : xs.filter (fun y => f y = f e) = d := by
              refine hs.full hr.nodup hd ?_
              rw [← hd0.head]; exact hhd
            exact hed (this ▸ hmem)
          refine ⟨by rw [q3 a hne]; exact hhd, ?_⟩
          rcases q4 with q4 | ⟨-, q4⟩
          · exact .inl q4
          · exact .inr ⟨a0, hne, q4, rfl⟩
        · rcases q5 with q5 | ⟨q5, q6⟩
          · exact .inl q5
          · exact .inr ⟨q5, q6, a0, rfl⟩
    · have h1 : h.n = 1 := by omega
      have hx1 : xs.length = 1 := by omega
      have ho : h.only = some e := by
        obtain ⟨o, rfl⟩ := List.length_eq_one_iff.1 hx1
        have : h.only = _ := hr.only
        simp only [List.mem_singleton] at he
        subst he
        simpa using this
      have hrem : h.remove P f e = (P, { h with only := none, n := 0 }) := by
        have h0 : ¬ h.n = 0 := by omega
        simp [HMap.remove, h1, ho]
      rw [hrem]
      refine ⟨hg, fun hh => ?_, fun a d _ _ _ _ hh => ⟨hh, .inl rfl⟩, .inl rfl⟩
      have := h2 hh; omega
  cases it with
  | empty => exact hp
  | single x done => exact hp
  | list nx =>
    obtain ⟨ha, hx, hs⟩ := hp
    exact ⟨hal, hx, hs.erase hW⟩
  | all g nl nx =>
    obtain ⟨ha, hg, h2, c, rest, cs, hx, hnl, hsuf, hf, hs, rfl⟩ := hp
    obtain ⟨b1, b2, b3, -⟩ := hdec g hg h2
    have hed : ∀ d ∈ c :: cs, e ∉ d := fun d hd hh => hW (List.mem_flatten.2 ⟨d, hd, hh⟩)
    refine ⟨hal, b1, b2, c, rest, cs, hx, hnl, ?_, ?_, fun d hd => (hs d hd).erase (hed d hd), rfl⟩
    · have hall : ∀ a ∈ rest, (h.remove P f e).2.order g = h.order g ∨
          ∃ a0, a ≠ a0 ∧ (h.remove P f e).2.order g = (h.order g).filter (· ≠ a0) ∧ (h.labelMap h.gen).get (f e) = some a0 := by
        clear hnl
        induction hf with
        | nil => simp
        | @cons a d rest cs had hf ih =>
          intro b hb
          rcases List.mem_cons.1 hb with rfl | hb
          · exact (b3 b d (hsuf.subset (by simp)) had.1 (hs d (by simp)) (hed d (by simp)) had.2).2
          · refine ih ?_ ?_ ?_ ?_ b hb
            · exact (List.suffix_cons a rest).trans hsuf
            · intro d' hd'; exact hs d' (by simp only [List.mem_cons] at hd' ⊢; grind)
            · intro hh; exact hW (by simp only [List.flatten_cons, List.mem_append] at hh ⊢; grind)
            · intro d' hd'; exact hed d' (by simp only [List.mem_cons] at hd' ⊢; grind)
      by_cases hsame : (h.remove P f e).2.order g = h.order g
      · rw [hsame]; exact hsuf
      · cases rest with
        | nil => simp
        | cons a rest =>
          rcases hall a (by simp) with h3 | ⟨a0, -, h4, h5⟩
          · exact absurd h3 hsame
          · rw [h4]
            obtain ⟨pre, hpre⟩ := hsuf
            refine ⟨pre.filter (· ≠ a0), ?_⟩
            rw [← hpre, List.filter_append]
            congr 1
            symm
            rw [List.filter_eq_self]
            intro b hb
            rcases hall b hb with h6 | ⟨a1, h6, -, h7⟩
            · exact absurd h6 hsame
            · rw [h5] at h7; cases h7; simpa using h6
    · refine forall₂_imp_mem hf ?_
      intro a d har hdc hd
      exact ⟨hd.1, (b3 a d (hsuf.subset har) hd.1 (hs d (by simp [hdc])) (hed d (by simp [hdc])) hd.2).1⟩
  | any g ls cur =>
    obtain ⟨ha, hg, h2, hls, c, cs, hc, hf, hs, rfl⟩ := hp
    obtain ⟨b1, b2, b3, b4⟩ := hdec g hg h2
    have hed : ∀ d ∈ c :: cs, e ∉ d := fun d hd hh => hW (List.mem_flatten.2 ⟨d, hd, hh⟩)
    refine ⟨hal, b1, b2, hls, c, cs, hc, ?_, fun d hd => (hs d hd).erase (hed d hd), rfl⟩
    refine forall₂_imp_mem hf ?_
    intro l d _ hdc hd
    have hsd := hs d (by simp [hdc])
    have hedd := hed d (by simp [hdc])
    cases hq : (h.labelMap g).get l with
    | none =>
      simp only [hq] at hd
      have : ((h.remove P f e).2.labelMap g).get l = none := by
        rcases b4 with b4 | ⟨-, b4, -⟩
        · rw [b4]; exact hq
        · rw [b4, AMap.get_del]; split
          · rfl
          · exact hq
      simp only [this]; exact hd
    | some a =>
      simp only [hq] at hd
      have hthis : ((h.remove P f e).2.labelMap g).get l = some a := by
        rcases b4 with b4 | ⟨rfl, b4, a0, b5⟩
        · rw [b4]; exact hq
        · rw [b4, AMap.get_del, if_neg, hq]
          rintro rfl
          have hm := h2 rfl
          have hgl : AMap.get h.abs.lists (f e) = some (h.ell a) := by
            show AMap.get (deref h.ell (h.labelMap h.gen)) (f e) = some (h.ell a)
            rw [get_deref, hq]; rfl
          have hd0 := (hr.getSome hm _ _ hgl).2
          have : xs.filter (fun y => f y = f e) = d := by
            refine hsd.full hr.nodup hd.1 ?_
            rw [← hd0.head]; exact hd.2
          apply hedd
          rw [← this]; simp [he]
      simp only [hthis]
      exact ⟨hd.1, (b3 a d (w.addr hq) hd.1 hsd hedd hd.2).1⟩

/-! ## Other changes, and the start -/

theorem Pend.congr {P Q : Slot} {f g : Nat → String} {xs W : List Nat} {h : HMap} {it : EdgeIt}
    (hP : ∀ x ∈ xs, Q x = P x) (hf : ∀ x ∈ xs, g x = f x) (hp : Pend P f xs h it W) : Pend Q g xs h it W := by
  have hal : Alone P xs → Alone Q xs := fun ha h1 x hx => by rw [hP x hx]; exact ha h1 x hx
  cases it with
  | empty => exact hp
  | single x done => exact hp
  | list nx =>
    obtain ⟨ha, hx, hs⟩ := hp
    exact ⟨hal ha, hx, hs.congr hf⟩
  | all gg nl nx =>
    obtain ⟨ha, hg, h2, c, rest, cs, hx, hnl, hsuf, hff, hs, rfl⟩ := hp
    exact ⟨hal ha, hg, h2, c, rest, cs, hx, hnl, hsuf, hff, fun d hd => (hs d hd).congr hf, rfl⟩
  | any gg ls cur =>
    obtain ⟨ha, hg, h2, hls, c, cs, hc, hff, hs, rfl⟩ := hp
    exact ⟨hal ha, hg, h2, hls, c, cs, hc, hff, fun d hd => (hs d hd).congr hf, rfl⟩

theorem Pend.clear {P : Slot} {f : Nat → String} {W : List Nat} {h : HMap} {it : EdgeIt}
    (hp : Pend P f [] h it W) : Pend P f [] h.clear it W := by
  cases it with
  | empty => exact hp
  | single x done => exact hp
  | list nx => exact hp
  | all g nl nx =>
    obtain ⟨ha, hg, h2, c, rest, cs, hx, hnl, hsuf, hff, hs, rfl⟩ := hp
    have hgn : g ≠ h.gen + 1 := by omega
    refine ⟨ha, Nat.le_succ_of_le hg, fun hh => absurd hh hgn, c, rest, cs, hx, hnl, ?_, hff, hs, rfl⟩
    simp only [HMap.clear, HMap.lazyInit, upd_other _ _ hgn]; exact hsuf
  | any g ls cur =>
    obtain ⟨ha, hg, h2, hls, c, cs, hc, hff, hs, rfl⟩ := hp
    have hgn : g ≠ h.gen + 1 := by omega
    refine ⟨ha, Nat.le_succ_of_le hg, fun hh => absurd hh hgn, hls, c, cs, hc, ?_, hs, rfl⟩
    simp only [HMap.clear, HMap.lazyInit, upd_other _ _ hgn]; exact hff

/-- The label lists of a map. -/
theorem EMRep.label_list {P : Slot} {f : Nat → String} {h : HMap} {xs : List Nat} (hr : EMRep P f h.abs xs)
    (h2 : 2 ≤ xs.length) {l : String} {a : Nat} (ha : (h.labelMap h.gen).get l = some a) :
    xs.filter (fun y => f y = l) ≠ [] ∧ (h.ell a).head = (xs.filter (fun y => f y = l)).head? := by
  have hgl : AMap.get h.abs.lists l = some (h.ell a) := by
    show AMap.get (deref h.ell (h.labelMap h.gen)) l = some (h.ell a)
    rw [get_deref, ha]; rfl
  have := hr.getSome h2 _ _ hgl
  exact ⟨this.1, this.2.head⟩

theorem EMRep.no_list {P : Slot} {f : Nat → String} {h : HMap} {xs : List Nat} (hr : EMRep P f h.abs xs)
    (h2 : 2 ≤ xs.length) {l : String} (ha : (h.labelMap h.gen).get l = none) : xs.filter (fun y => f y = l) = [] := by
  have hgl : AMap.get h.abs.lists l = none := by
    show AMap.get (deref h.ell (h.labelMap h.gen)) l = none
    rw [get_deref, ha]; rfl
  exact hr.getNone h2 _ hgl

theorem suff_filter (f : Nat → String) (xs : List Nat) (l : String) : Suff f xs (xs.filter (fun y => f y = l)) := by
  intro x hx
  have : f x = l := by simpa using (List.mem_filter.1 (List.mem_of_head? hx)).2
  exact ⟨[], by rw [this]; rfl⟩

theorem alone_of_two {P : Slot} {xs : List Nat} (h : 2 ≤ xs.length) : Alone P xs := fun h1 => by omega

theorem forall₂_of_map {α β : Type} {R : α → β → Prop} {φ : α → β} : ∀ {as : List α}, (∀ a ∈ as, R a (φ a)) →
    List.Forall₂ R as (as.map φ)
  | [], _ => .nil
  | a :: as, h => .cons (h a (by simp)) (forall₂_of_map (fun b hb => h b (by simp [hb])))

theorem forall₂_map_map {α β γ : Type} {R : β → γ → Prop} {φ : α → β} {ψ : α → γ} : ∀ {as : List α}, (∀ a ∈ as, R (φ a) (ψ a)) →
    List.Forall₂ R (as.map φ) (as.map ψ)
  | [], _ => .nil
  | a :: as, h => .cons (h a (by simp)) (forall₂_map_map (fun b hb => h b (by simp [hb])))

theorem Pend.iterator {P : Slot} {f : Nat → String} {xs : List Nat} {h : HMap} (w : h.Wf) (hr : EMRep P f h.abs xs) :
    ∃ W, W.Perm xs ∧ Pend P f xs h h.iterator W := by
  have hn : h.n = xs.length := hr.n
  by_cases h2 : 2 ≤ xs.length
  · have e0 : ¬ h.n = 0 := by omega
    have e1 : ¬ h.n = 1 := by omega
    obtain ⟨L, hL⟩ : ∃ L, h.labelMap h.gen = L := ⟨_, rfl⟩
    have hkeys : (AMap.keys L).Nodup := hL ▸ w.keys h.gen
    have hord : h.order h.gen = L.map Prod.snd := by rw [← w.vals, hL]
    have hget : ∀ p ∈ L, (h.labelMap h.gen).get p.1 = some p.2 := by
      intro p hp; rw [hL]; exact AMap.get_of_mem hkeys hp
    have hperm : (((AMap.keys L).map (fun l => xs.filter (fun x => f x = l))).flatten).Perm xs := by
      apply perm_flatten_filter _ _ hkeys
      intro x hx
      apply Classical.byContradiction
      intro hc
      have := hr.no_list h2 (by rw [hL]; exact AMap.not_mem_keys.1 hc)
      have hm : x ∈ xs.filter (fun y => f y = f x) := by simp [hx]
      rw [this] at hm; simp at hm
    have hall : List.Forall₂ (fun a d => d ≠ [] ∧ (h.ell a).head = d.head?) (L.map Prod.snd)
        (L.map (fun p => xs.filter (fun x => f x = p.1))) := by
      refine forall₂_map_map ?_
      intro p hp
      exact hr.label_list h2 (hget p hp)
    have hkm : (AMap.keys L).map (fun l => xs.filter (fun x => f x = l)) = L.map (fun p => xs.filter (fun x => f x = p.1)) := by
      simp [AMap.keys, List.map_map, Function.comp_def]
    rw [hkm] at hperm
    have hsu : ∀ d ∈ L.map (fun p => xs.filter (fun x => f x = p.1)), Suff f xs d := by
      intro d hd
      obtain ⟨p, -, rfl⟩ := List.mem_map.1 hd
      exact suff_filter _ _ _
    refine ⟨_, hperm, ?_⟩
    simp only [HMap.iterator, if_neg e0, if_neg e1, hord]
    cases L with
    | nil => exact ⟨alone_of_two h2, Nat.le_refl _, fun _ => h2, [], [], [], rfl, rfl, by simp, .nil, by simpa using Suff.nil _ _, rfl⟩
    | cons p L =>
      simp only [List.map_cons] at hall hsu hord ⊢
      cases hall with
      | cons h3 h4 =>
        refine ⟨alone_of_two h2, Nat.le_refl _, fun _ => h2, _, L.map Prod.snd, _, h3.2, rfl, ?_, h4, hsu, rfl⟩
        rw [hord]; exact List.suffix_cons _ _
  · match xs, hr, hn, h2 with
    | [], hr, hn, _ =>
      have hn : h.n = 0 := by simpa using hn
      exact ⟨[], .nil, by simp [HMap.iterator, hn, Pend]⟩
    | [o], hr, hn, _ =>
      have hn : h.n = 1 := by simpa using hn
      have ho : h.only = some o := hr.only
      exact ⟨[o], .refl _, by simp [HMap.iterator, hn, ho, Pend]⟩
    | a :: b :: xs, _, _, h2 => simp at h2

theorem Pend.iteratorLabel {P : Slot} {f : Nat → String} {xs : List Nat} {h : HMap} (w : h.Wf) (hr : EMRep P f h.abs xs) (l : String) :
    ∃ it, h.iteratorLabel f l = some it ∧ Pend P f xs h it (xs.filter (fun x => f x = l)) := by
  have hn : h.n = xs.length := hr.n
  by_cases h2 : 2 ≤ xs.length
  · have e0 : ¬ h.n = 0 := by omega
    have e1 : ¬ h.n = 1 := by omega
    simp only [HMap.iteratorLabel, if_neg e0, if_neg e1]
    cases hq : (h.labelMap h.gen).get l with
    | none => exact ⟨_, rfl, hr.no_list h2 hq⟩
    | some a => exact ⟨_, rfl, alone_of_two h2, (hr.label_list h2 hq).2, suff_filter _ _ _⟩
  · match xs, hr, hn, h2 with
    | [], hr, hn, _ =>
      have hn : h.n = 0 := by simpa using hn
      exact ⟨.empty, by simp [HMap.iteratorLabel, hn], rfl⟩
    | [o], hr, hn, _ =>
      have hn : h.n = 1 := by simpa using hn
      have ho : h.only = some o := hr.only
      have hs : deref h.ell (h.labelMap h.gen) = [] := hr.small (by simp)
      have hs' : h.labelMap h.gen = [] := by simpa [deref] using hs
      by_cases hl : l = f o
      · exact ⟨.single (some o) false, by simp [HMap.iteratorLabel, hn, ho, hl], by simp [Pend, hl]⟩
      · exact ⟨.empty, by simp [HMap.iteratorLabel, hn, ho, hl, hs'], by simp [Pend, Ne.symm hl]⟩
    | a :: b :: xs, _, _, h2 => simp at h2

theorem Pend.iteratorAnyLabel {P : Slot} {f : Nat → String} {xs : List Nat} {h : HMap} (w : h.Wf) (hr : EMRep P f h.abs xs)
    {ls : List String} (hls : ls.Nodup) :
    ∃ it W, h.iteratorAnyLabel f ls = some it ∧ W.Perm (xs.filter (fun x => f x ∈ ls)) ∧ Pend P f xs h it W := by
  have hn : h.n = xs.length := hr.n
  by_cases h2 : 2 ≤ xs.length
  · have e0 : ¬ h.n = 0 := by omega
    have e1 : ¬ h.n = 1 := by omega
    simp only [HMap.iteratorAnyLabel, if_neg e0, if_neg e1]
    refine ⟨_, _, rfl, ?_, alone_of_two h2, Nat.le_refl _, fun _ => h2, hls, [], ls.map (fun l => xs.filter (fun x => f x = l)), rfl,
      forall₂_of_map ?_, ?_, rfl⟩
    · have e2 : ls.map (fun l => xs.filter (fun x => f x = l)) =
          ls.map (fun l => (xs.filter (fun x => f x ∈ ls)).filter (fun x => f x = l)) := by
        apply List.map_congr_left
        intro l hl
        rw [List.filter_filter]
        apply List.filter_congr
        intro x _
        by_cases hx : f x = l
        · simp [hx, hl]
        · simp [hx]
      rw [e2]
      simp only [List.flatten_cons, List.nil_append]
      apply perm_flatten_filter _ _ hls
      intro x hx
      simpa using (List.mem_filter.1 hx).2
    · intro l hl
      cases hq : (h.labelMap h.gen).get l with
      | none => exact hr.no_list h2 hq
      | some a => exact hr.label_list h2 hq
    · intro d hd
      rcases List.mem_cons.1 hd with rfl | hd
      · exact Suff.nil _ _
      · obtain ⟨l, -, rfl⟩ := List.mem_map.1 hd
        exact suff_filter _ _ _
  · match xs, hr, hn, h2 with
    | [], hr, hn, _ =>
      have hn : h.n = 0 := by simpa using hn
      exact ⟨.empty, [], by simp [HMap.iteratorAnyLabel, hn], .nil, rfl⟩
    | [o], hr, hn, _ =>
      have hn : h.n = 1 := by simpa using hn
      have ho : h.only = some o := hr.only
      by_cases hl : f o ∈ ls
      · exact ⟨.single (some o) false, [o], by simp [HMap.iteratorAnyLabel, hn, ho, hl], by simp [hl], by simp [Pend]⟩
      · exact ⟨.empty, [], by simp [HMap.iteratorAnyLabel, hn, ho, hl], by simp [hl], by simp [Pend]⟩
    | a :: b :: xs, _, _, h2 => simp at h2

end LPG
