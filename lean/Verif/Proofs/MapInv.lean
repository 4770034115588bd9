import Verif.Proofs.EdgeIter
import Verif.Proofs.AllEdges

/-! One edge map together with an iterator over it. -/
namespace LPG

theorem HMap.add_congr {P : Slot} {f g : Nat → String} {h : HMap} {e : Nat} (he : f e = g e) (hn : h.n ≠ 1) :
    h.add P f e = h.add P g e := by
  unfold HMap.add
  rw [he]
  simp [hn]

theorem HMap.remove_congr {P : Slot} {f g : Nat → String} {h : HMap} {e : Nat} (he : f e = g e) :
    h.remove P f e = h.remove P g e := by
  unfold HMap.remove
  rw [he]

theorem Suff.anyLabel {f g : Nat → String} {xs d : List Nat} (hl : xs.length ≤ 1) (h : Suff f xs d) : Suff g xs d := by
  intro x hx
  obtain ⟨pre, hp⟩ := h x hx
  have hxm := (h.mem (List.mem_of_head? hx)).1
  match xs, hl, hxm with
  | [o], _, hxm =>
    have : x = o := by simpa using hxm
    subst this
    exact ⟨pre, by simpa using hp⟩

theorem Pend.anyLabel {P : Slot} {f g : Nat → String} {xs W : List Nat} {h : HMap} {it : EdgeIt} (hl : xs.length ≤ 1)
    (hp : Pend P f xs h it W) : Pend P g xs h it W := by
  cases it with
  | empty => exact hp
  | single x done => exact hp
  | list nx => exact ⟨hp.1, hp.2.1, hp.2.2.anyLabel hl⟩
  | all gg nl nx =>
    obtain ⟨ha, hg, h2, c, rest, cs, hx, hnl, hsuf, hff, hs, rfl⟩ := hp
    exact ⟨ha, hg, h2, c, rest, cs, hx, hnl, hsuf, hff, fun d hd => (hs d hd).anyLabel hl, rfl⟩
  | any gg ls cur =>
    obtain ⟨ha, hg, h2, hls, c, cs, hc, hff, hs, rfl⟩ := hp
    exact ⟨ha, hg, h2, hls, c, cs, hc, hff, fun d hd => (hs d hd).anyLabel hl, rfl⟩

theorem HMap.iteratorLabel_wants {h : HMap} {f : Nat → String} {l l' : String} {it : EdgeIt}
    (hi : h.iteratorLabel f l = some it) (hw : Wants it l') : False := by
  simp only [HMap.iteratorLabel] at hi
  repeat' split at hi
  all_goals first
    | cases hi; cases hw
    | cases hi
    | skip

theorem HMap.iteratorAnyLabel_wants {h : HMap} {f : Nat → String} {ls : List String} {l' : String} {it : EdgeIt}
    (hi : h.iteratorAnyLabel f ls = some it) (hw : Wants it l') : l' ∈ ls := by
  simp only [HMap.iteratorAnyLabel] at hi
  repeat' split at hi
  all_goals first
    | (cases hi; cases hw; done)
    | (cases hi; done)
    | (cases hi; exact hw)

/-- After a removal the edge is not linked to others. -/
theorem HMap.remove_next {P : Slot} {f : Nat → String} {h : HMap} {xs : List Nat} {e : Nat} (hr : EMRep P f h.abs xs)
    (he : e ∈ xs) (ha : Alone P xs) : ((h.remove P f e).1 e).next = none := by
  have hn : h.n = xs.length := hr.n
  by_cases h2 : 2 ≤ xs.length
  · have e0 : ¬ h.n = 0 := by omega
    have e1 : ¬ h.n = 1 := by omega
    simp only [HMap.remove, if_neg e0, if_neg e1]
    cases hq : (h.labelMap h.gen).get (f e) with
    | none =>
      have := hr.no_list h2 hq
      have hm : e ∈ xs.filter (fun y => f y = f e) := by simp [he]
      rw [this] at hm; simp at hm
    | some a => simp [EList.remove]
  · have h1 : xs.length = 1 := by
      cases xs with
      | nil => simp at he
      | cons x xs => simp only [List.length_cons] at h2 ⊢; omega
    have h1' : h.n = 1 := by omega
    have e0 : ¬ h.n = 0 := by omega
    simp only [HMap.remove, if_neg e0, if_pos h1']
    split <;> exact ha h1 e he

/-- `L`: the labels now; `R`: edges that may be filed under an old label; `q`: the labels that are sought; `xs`: the edges of
the map, `f` says where they are filed; `W`: what the iterator would still yield. -/
structure MapInv (R : List Nat) (q : String → Prop) (P : Slot) (L : Nat → String) (h : HMap) (it : EdgeIt)
    (xs W : List Nat) (f : Nat → String) : Prop where
  wf : h.Wf
  rep : EMRep P f h.abs xs
  key : ∀ e ∈ xs, e ∉ R → f e = L e
  pend : Pend P f xs h it W
  nodup : W.Nodup
  sub : ∀ x ∈ W, x ∈ xs
  want : ∀ l, Wants it l → q l
  labels : ∀ x ∈ W, q (f x)

namespace MapInv

variable {R : List Nat} {q : String → Prop} {P : Slot} {L : Nat → String} {h : HMap} {it : EdgeIt} {xs W : List Nat}
  {f : Nat → String}

theorem adv (hi : MapInv R q P L h it xs W f) :
    ∃ it', h.adv P it = some (W.head?, it') ∧ MapInv R q P L h it' xs W.tail f := by
  obtain ⟨it', h1, h2, h3⟩ := hi.pend.adv hi.wf hi.rep
  exact ⟨it', h1, hi.wf, hi.rep, hi.key, h2, hi.nodup.sublist (List.tail_sublist W),
    fun x hx => hi.sub x (List.mem_of_mem_tail hx), fun l hl => hi.want l (h3 l hl),
    fun x hx => hi.labels x (List.mem_of_mem_tail hx)⟩

theorem mono {R' : List Nat} (hi : MapInv R q P L h it xs W f) (hR : ∀ e ∈ R, e ∈ R') : MapInv R' q P L h it xs W f :=
  { hi with key := fun e he hne => hi.key e he (fun hh => hne (hR e hh)) }

theorem congr {Q : Slot} {L' : Nat → String} (hi : MapInv R q P L h it xs W f) (hP : ∀ x ∈ xs, Q x = P x)
    (hL : ∀ x ∈ xs, x ∉ R → L' x = L x) : MapInv R q Q L' h it xs W f :=
  { hi with
    rep := hi.rep.congr hP (fun _ _ => rfl)
    key := fun e he hne => (hi.key e he hne).trans (hL e he hne).symm
    pend := hi.pend.congr hP (fun _ _ => rfl) }

theorem clear (hi : MapInv R q P L h it [] W f) : MapInv R q P L h.clear it [] W f :=
  { hi with
    wf := hi.wf.clear
    rep := by rw [HMap.abs_clear]; exact EMRep.empty _ _
    pend := hi.pend.clear }

theorem remove {e : Nat} (hi : MapInv R q P L h it xs W f) (he : e ∈ xs) (hR : e ∉ R) (hW : e ∉ W) :
    MapInv R q (h.remove P L e).1 L (h.remove P L e).2 it (xs.erase e) W f ∧
      (it.walks = true → ((h.remove P L e).1 e).next = none) := by
  have hk : f e = L e := hi.key e he hR
  rw [HMap.remove_congr (P := P) (h := h) hk.symm]
  obtain ⟨a1, a2, a3⟩ := HMap.remove_abs (P := P) (label := f) hi.wf e
  have hs := EdgeMap.remove_spec hi.rep he
  refine ⟨⟨a1, ?_, ?_, hi.pend.remove hi.wf hi.rep he hW, hi.nodup, ?_, hi.want, hi.labels⟩, ?_⟩
  · rw [a2, a3]; exact hs.1
  · intro x hx; exact hi.key x (List.mem_of_mem_erase hx)
  · intro x hx
    have : x ≠ e := by rintro rfl; exact hW hx
    exact (List.mem_erase_of_ne this).2 (hi.sub x hx)
  · intro hw; exact HMap.remove_next hi.rep he (hi.pend.alone hw)

theorem add {e : Nat} {P' : Slot} {h' : HMap} (hi : MapInv R q P L h it xs W f) (hq : (∀ l, q l) ∨ R = []) (he : e ∉ xs)
    (hn : it.walks = true → (P e).next = none) (hadd : h.add P L e = some (P', h')) :
    ∃ f' W', Ins e W W' ∧ MapInv R q P' L h' it (xs ++ [e]) W' f' ∧ (e ∈ W' → q (L e)) := by
  have heW : e ∉ W := fun hh => he (hi.sub e hh)
  obtain ⟨g, hg, hgs, hadd', hge⟩ : ∃ g, MapInv R q P L h it xs W g ∧ (∀ x ∈ xs, x ∉ R → g x = L x) ∧
      h.add P g e = some (P', h') ∧ g e = L e := by
    by_cases hl : xs.length ≤ 1
    · refine ⟨L, { hi with rep := hi.rep.anyLabel hl, key := fun _ _ _ => rfl, pend := hi.pend.anyLabel hl, labels := ?_ },
        fun _ _ _ => rfl, hadd, rfl⟩
      intro x hx
      rcases hq with hq | rfl
      · exact hq _
      · rw [← hi.key x (hi.sub x hx) (by simp)]; exact hi.labels x hx
    · have hne : ∀ x ∈ xs, upd f e (L e) x = f x := fun x hx => upd_other _ _ (fun hh => he (hh ▸ hx))
      refine ⟨upd f e (L e), { hi with rep := hi.rep.congr (fun _ _ => rfl) hne, key := ?_, pend := hi.pend.congr (fun _ _ => rfl) hne, labels := ?_ }, ?_, ?_, upd_same _ _ _⟩
      · intro x hx hR; rw [hne x hx]; exact hi.key x hx hR
      · intro x hx; rw [hne x (hi.sub x hx)]; exact hi.labels x hx
      · intro x hx hR; rw [hne x hx]; exact hi.key x hx hR
      · rw [← hadd]
        apply HMap.add_congr (upd_same _ _ _)
        have : h.n = xs.length := hi.rep.n
        omega
  obtain ⟨W', w1, w2, w3⟩ := hg.pend.add hg.wf hg.rep hg.nodup hn hadd' 
  have hqe : e ∈ W' → q (L e) := by
    intro hh
    rcases w3 hh with h1 | h1 | ⟨x, hx, h1⟩
    · exact absurd h1 heW
    · rw [← hge]; exact hg.want _ h1
    · rw [← hge, ← h1]; exact hg.labels x hx
  refine ⟨g, W', w1, ⟨?_, ?_, ?_, w2, w1.nodup hg.nodup heW, ?_, hg.want, ?_⟩, hqe⟩
  · exact (HMap.add_abs (P := P) (label := g) hg.wf e).1 _ hadd'
  · obtain ⟨P2, em2, b1, b2, b3⟩ := EdgeMap.add_spec hg.rep he
    have := (HMap.add_abs (P := P) (label := g) hg.wf e).2
    rw [hadd', b1] at this
    simp only [Option.map_some, Option.some.injEq, Prod.mk.injEq] at this
    obtain ⟨rfl, rfl⟩ := this
    exact b2
  · intro x hx hR
    rw [List.mem_append, List.mem_singleton] at hx
    rcases hx with hx | rfl
    · exact hgs x hx hR
    · exact hge
  · intro x hx
    rw [List.mem_append, List.mem_singleton]
    exact (w1.mem hx).imp_left (hg.sub x)
  · intro x hx
    rcases w1.mem hx with h1 | rfl
    · exact hg.labels x h1
    · rw [hge]; exact hqe hx

end MapInv
end LPG
