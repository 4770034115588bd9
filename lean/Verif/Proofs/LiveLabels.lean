import Verif.Proofs.LabelHeap
/-!
# The iterators of the label index in a graph that changes
-/
namespace LPG

theorem FastSet.Rep.lkeys {f : FastSet Nat} {s : FSet Nat} (h : f.Rep s) : (AMap.keys f.l).Nodup := by
  obtain ⟨cs, h1, h2, h3, h4, h5⟩ := h.cells
  rw [h3]
  unfold AMap.keys
  rw [List.map_fst_zip (by simp [h4])]
  exact h1

theorem FastSet.Rep.lvals {f : FastSet Nat} {s : FSet Nat} (h : f.Rep s) (ok : s.Ok) : f.l.map Prod.snd = AMap.keys s := by
  rw [← ok.items]; exact h.items

/-- The cell of an id has that id. -/
theorem FastSet.Rep.cell {f : FastSet Nat} {s : FSet Nat} (h : f.Rep s) (ok : s.Ok) {n el : Nat} (hg : f.m.get n = some el)
    {c : Nat × Nat} (hc : c ∈ f.l) (he : c.1 = el) : c.2 = n := by
  have h1 : f.get n = AMap.get f.l el := by simp only [FastSet.get, hg]
  rw [h.get] at h1
  have h2 : AMap.get f.l el = some c.2 := AMap.get_of_mem h.lkeys (by rw [← he]; exact hc)
  rw [h2] at h1
  exact ok.same (n, c.2) (AMap.mem_of_get h1)

theorem cellsAfter_append {c : Nat × Nat} {P : List (Nat × Nat)} : ∀ {A : List (Nat × Nat)}, (AMap.keys (A ++ c :: P)).Nodup →
    LState.cellsAfter c.1 (A ++ c :: P) = P
  | [], _ => by simp [LState.cellsAfter]
  | d :: A, h => by
    have h' : d.1 ∉ AMap.keys (A ++ c :: P) ∧ (AMap.keys (A ++ c :: P)).Nodup := by simpa [AMap.keys] using h
    have : d.1 ≠ c.1 := fun e => h'.1 (by simp [AMap.keys, e])
    rw [List.cons_append, LState.cellsAfter, if_neg this]
    exact cellsAfter_append h'.2

/-- What is left to visit: the end of the list of the set of the label `l`. -/
def LMap.Pend (h : LMap) (l : String) (a : Nat) (P : List (Nat × Nat)) : Prop :=
  h.m.get l = some a ∧ ∃ A, (h.sets a).l = A ++ P

namespace LMap

theorem Pend.nodup {h : LMap} {nm : NodeMap} {l : String} {a : Nat} {P : List (Nat × Nat)} (hp : h.Pend l a P)
    (w : Sim h nm) (ok : nm.Ok) : (P.map Prod.snd).Nodup := by
  obtain ⟨ha, A, hA⟩ := hp
  obtain ⟨s, hs, hr⟩ := w.at ha
  have h1 := hr.lvals (ok.sets l s hs)
  rw [hA, List.map_append] at h1
  have h2 := (ok.sets l s hs).nodup
  rw [← h1, List.nodup_append] at h2
  exact h2.2.1

theorem Pend.mem {h : LMap} {nm : NodeMap} {l : String} {a : Nat} {P : List (Nat × Nat)} (hp : h.Pend l a P)
    (w : Sim h nm) (ok : nm.Ok) {n : Nat} (hn : n ∈ P.map Prod.snd) : n ∈ nm.members l := by
  obtain ⟨ha, A, hA⟩ := hp
  obtain ⟨s, hs, hr⟩ := w.at ha
  have h1 := hr.lvals (ok.sets l s hs)
  simp only [NodeMap.members, hs]
  rw [← h1, hA, List.map_append]
  exact List.mem_append_right _ hn

theorem Pend.addTo {h : LMap} {l l' : String} {a n : Nat} {P : List (Nat × Nat)} (hp : h.Pend l a P) {nm : NodeMap}
    (w : Sim h nm) :
    (h.addTo n l').Pend l a P ∨ (l' = l ∧ ∃ el, (h.addTo n l').Pend l a (P ++ [(el, n)])) := by
  obtain ⟨ha, A, hA⟩ := hp
  unfold LMap.addTo
  cases hg : h.m.get l' with
  | none =>
    left
    have hne : l ≠ l' := by rintro rfl; rw [hg] at ha; cases ha
    refine ⟨by simp only [AMap.get_set, if_neg hne]; exact ha, A, ?_⟩
    simp only
    rw [upd_other _ _ (Nat.ne_of_lt (w.lt _ _ ha))]
    exact hA
  | some b =>
    dsimp only
    by_cases hb : b = a
    · subst hb
      have hl := w.inj _ _ _ hg ha
      subst hl
      cases hf : (h.sets b).m.get n with
      | some c =>
        left
        refine ⟨ha, A, ?_⟩
        simp only [upd_same, FastSet.add, hf]
        exact hA
      | none =>
        right
        refine ⟨rfl, (h.sets b).nextCell, ha, A, ?_⟩
        simp only [upd_same, FastSet.add, hf, hA, List.append_assoc]
    · left
      refine ⟨ha, A, ?_⟩
      simp only
      rw [upd_other _ _ (fun e => hb e.symm)]
      exact hA

theorem Pend.removeFrom {h : LMap} {l l' : String} {a n : Nat} {P : List (Nat × Nat)} (hp : h.Pend l a P) {nm : NodeMap}
    (w : Sim h nm) (ok : nm.Ok) (hP : P ≠ []) (hn : l' = l → n ∉ P.map Prod.snd) : (h.removeFrom n l').Pend l a P := by
  obtain ⟨ha, A, hA⟩ := hp
  unfold LMap.removeFrom
  cases hg : h.m.get l' with
  | none => exact ⟨ha, A, hA⟩
  | some b =>
    dsimp only
    by_cases hb : b = a
    · subst hb
      have hl := w.inj _ _ _ hg ha
      subst hl
      obtain ⟨s, hs, hr⟩ := w.at ha
      have hok := ok.sets l' s hs
      have hl : ∃ A', ((h.sets b).remove n).1.l = A' ++ P := by
        unfold FastSet.remove
        cases hf : (h.sets b).m.get n with
        | none => exact ⟨A, hA⟩
        | some el =>
          refine ⟨A.filter (fun c => c.1 ≠ el), ?_⟩
          simp only [hA, List.filter_append]
          congr 1
          rw [List.filter_eq_self]
          intro c hc
          have : c.1 ≠ el := by
            intro he
            have := hr.cell hok hf (c := c) (by rw [hA]; exact List.mem_append_right _ hc) he
            exact hn rfl (by rw [← this]; exact List.mem_map_of_mem hc)
          simpa using this
      obtain ⟨A', hA'⟩ := hl
      have hsz : ((h.sets b).remove n).1.size ≠ 0 := by
        rw [(hr.remove n).1.size]
        have h1 := (hr.remove n).1.items
        unfold FastSet.items at h1
        have h2 := congrArg List.length h1
        rw [hA'] at h2
        simp only [List.length_map, List.length_append] at h2
        have : P.length ≠ 0 := by simpa using hP
        omega
      rw [if_neg hsz]
      exact ⟨ha, A', by simp only [upd_same]; exact hA'⟩
    · have hne : l ≠ l' := by rintro rfl; rw [ha] at hg; cases hg; exact hb rfl
      have e : upd h.sets b ((h.sets b).remove n).1 a = h.sets a := upd_other _ _ (fun e => hb e.symm)
      split
      · exact ⟨by simp only [AMap.get_del, if_neg hne]; exact ha, A, by simp only [e]; exact hA⟩
      · exact ⟨ha, A, by simp only [e]; exact hA⟩

theorem Pend.foldAdd {n : Nat} : ∀ {ls : List String} {h : LMap} {nm : NodeMap} {l : String} {a : Nat} {P : List (Nat × Nat)},
    h.Pend l a P → Sim h nm → nm.Ok →
    ∃ P', (ls.foldl (fun h l => h.addTo n l) h).Pend l a P' ∧ (P' = P ∨ (l ∈ ls ∧ ∃ el, P' = P ++ [(el, n)]))
  | [], _, _, _, _, P, hp, _, _ => ⟨P, hp, .inl rfl⟩
  | l' :: ls, h, nm, l, a, P, hp, w, ok => by
    rcases hp.addTo (n := n) (l' := l') w with h1 | ⟨rfl, el, h1⟩
    · obtain ⟨P', h2, h3⟩ := Pend.foldAdd (n := n) (ls := ls) h1 (w.addTo n l') (ok.addTo n l')
      exact ⟨P', h2, h3.imp_right (fun h => ⟨by simp [h.1], h.2⟩)⟩
    · obtain ⟨P', h2, h3⟩ := Pend.foldAdd (n := n) (ls := ls) h1 (w.addTo n l') (ok.addTo n l')
      rcases h3 with rfl | ⟨-, el', rfl⟩
      · exact ⟨_, h2, .inr ⟨by simp, el, rfl⟩⟩
      · exfalso
        have hok : ((ls.foldl (fun nm l => nm.addTo n l) (nm.addTo n l'))).Ok := (NodeMap.foldl_addTo n ls _).1 (ok.addTo n l')
        have := h2.nodup (w.addTo n l').foldAdd hok
        rw [List.map_append, List.map_append, List.append_assoc, List.nodup_append] at this
        simp at this

theorem Pend.foldRemove {n : Nat} : ∀ {ls : List String} {h : LMap} {nm : NodeMap} {l : String} {a : Nat}
    {P : List (Nat × Nat)}, h.Pend l a P → Sim h nm → nm.Ok → P ≠ [] → (l ∈ ls → n ∉ P.map Prod.snd) →
    (ls.foldl (fun h l => h.removeFrom n l) h).Pend l a P
  | [], _, _, _, _, _, hp, _, _, _, _ => hp
  | l' :: ls, _, _, _, _, _, hp, w, ok, hP, hn =>
    Pend.foldRemove (ls := ls) (hp.removeFrom w ok hP (fun e => hn (by simp [e]))) (w.removeFrom n l') (ok.removeFrom n l') hP
      (fun h => hn (by simp [h]))

theorem Pend.nol {h : LMap} {l : String} {a : Nat} {P : List (Nat × Nat)} (hp : h.Pend l a P) (f : FastSet Nat) :
    ({ h with nolabels := f } : LMap).Pend l a P := hp

end LMap

namespace LState

/-- What one operation does to the end of the list of a set. -/
theorem pend_step {h h' : LState} {σ : Spec} {op : Op} {l : String} {a : Nat} {P : List (Nat × Nat)} (o : h.Ok σ)
    (hv : σ.Valid op) (hs : h.step op = some h') (hp : h.lbl.Pend l a P) (hP : P ≠ [])
    (h1 : ∀ n new, op = .setLabels n new → l ∈ σ.labels n → l ∉ new → n ∉ P.map Prod.snd)
    (h2 : ∀ n, op = .detachRemove n → l ∈ σ.labels n → n ∉ P.map Prod.snd) :
    ∃ P', h'.lbl.Pend l a P' ∧ (P' = P ∨ ∃ el n, P' = P ++ [(el, n)] ∧
      ((∃ ls ps, op = .newNode ls ps ∧ n = σ.next) ∨ (∃ new, op = .setLabels n new ∧ l ∈ new ∧ l ∉ σ.labels n))) := by
  unfold LState.step at hs
  split at hs
  · cases hs
  · rename_i s hs1
    cases hs
    dsimp only
    cases op <;> try exact ⟨P, hp, .inl rfl⟩
    case newNode ls ps =>
      simp only [lblStep, LMap.add]
      split
      · exact ⟨P, hp, .inl rfl⟩
      · obtain ⟨P', h3, h4⟩ := hp.foldAdd (n := h.base.idBase) (ls := newStringSet ls) o.sim o.lbl.ok
        refine ⟨P', h3, h4.imp_right ?_⟩
        rintro ⟨-, el, rfl⟩
        exact ⟨el, _, rfl, .inl ⟨ls, ps, rfl, o.core.next⟩⟩
    case setLabels n new =>
      simp only [lblStep, LMap.replace]
      have hlab := (o.core.labels n hv.1).2
      split
      · exact ⟨P, hp, .inl rfl⟩
      · split
        · split
          · exact ⟨P, hp, .inl rfl⟩
          · exact ⟨P, hp, .inl rfl⟩
        · have key : ∀ (lm : LMap) (nm : NodeMap), lm.Pend l a P → lm.Sim nm → nm.Ok →
              ∃ P', ((new.filter (fun l => !(h.base.nLabels n).contains l)).foldl (fun h l => h.addTo n l)
                (((h.base.nLabels n).filter (fun l => !new.contains l)).foldl (fun h l => h.removeFrom n l) lm)).Pend l a P' ∧
                (P' = P ∨ ∃ el n', P' = P ++ [(el, n')] ∧ ((∃ ls ps, Op.setLabels n new = .newNode ls ps ∧ n' = σ.next) ∨
                  (∃ new', Op.setLabels n new = .setLabels n' new' ∧ l ∈ new' ∧ l ∉ σ.labels n'))) := by
            intro lm nm hp w ok
            have hr := hp.foldRemove (n := n) (ls := (h.base.nLabels n).filter (fun l => !new.contains l)) w ok hP
              (by
                intro hl
                rw [List.mem_filter] at hl
                refine h1 n new rfl ((hlab l).1 hl.1) ?_
                simpa using hl.2)
            obtain ⟨P', h3, h4⟩ := hr.foldAdd (n := n) (ls := new.filter (fun l => !(h.base.nLabels n).contains l))
              w.foldRemove ((NodeMap.foldl_removeFrom n _ nm).1 ok)
            refine ⟨P', h3, h4.imp_right ?_⟩
            rintro ⟨hl, el, rfl⟩
            rw [List.mem_filter] at hl
            refine ⟨el, n, rfl, .inr ⟨new, rfl, hl.1, ?_⟩⟩
            rw [← hlab]
            simpa using hl.2
          split
          · exact key _ { h.base.byLabel with nolabels := FSet.remove h.base.byLabel.nolabels n } hp
              (o.sim.nol (o.sim.nolabels.remove n).1) ⟨o.lbl.ok.sets, o.lbl.ok.keys, o.lbl.ok.nolabels.remove n, o.lbl.ok.nonempty⟩
          · exact key _ _ hp o.sim o.lbl.ok
    case detachRemove n =>
      simp only [lblStep, LMap.remove]
      split
      · exact ⟨P, hp, .inl rfl⟩
      · refine ⟨P, hp.foldRemove o.sim o.lbl.ok hP ?_, .inl rfl⟩
        intro hl
        exact h2 n rfl (((o.core.labels n hv).2 l).1 hl)

end LState

/-- Between two calls: `Y` are the nodes visited, `K` those that must be visited. -/
structure LblInv (ls : List String) (K : Nat → Prop) (h : LState) (σ : Spec) (it : LblIt) (Y : List Nat) : Prop where
  ok : h.Ok σ
  lt : ∀ y ∈ Y, y < σ.next
  left : ∃ a P, (it = .cells a P.head? ∨ (it = .empty ∧ P = [])) ∧ (P ≠ [] → ∃ l ∈ ls, h.lbl.Pend l a P) ∧
    (∀ c ∈ P, c.2 ∉ Y) ∧ ∀ n, K n → n ∈ Y ∨ (n ∈ P.map Prod.snd ∧ σ.HasAll ls n)

theorem scan_spec {p : Nat → Bool} : ∀ {P : List (Nat × Nat)},
    ((LState.scan p P).1 = none ∧ (LState.scan p P).2 = none ∧ ∀ c ∈ P, p c.2 = false) ∨
    ∃ A c B, P = A ++ c :: B ∧ (∀ d ∈ A, p d.2 = false) ∧ p c.2 = true ∧ (LState.scan p P) = (some c.2, B.head?)
  | [] => .inl ⟨rfl, rfl, by simp⟩
  | c :: P => by
    unfold LState.scan
    by_cases hc : p c.2 = true
    · right
      refine ⟨[], c, P, rfl, by simp, hc, ?_⟩
      rw [if_pos hc]
    · rw [if_neg hc]
      rcases scan_spec (p := p) (P := P) with ⟨h1, h2, h3⟩ | ⟨A, d, B, h1, h2, h3, h4⟩
      · left
        refine ⟨h1, h2, ?_⟩
        intro d hd
        rcases List.mem_cons.1 hd with rfl | hd
        · simpa using hc
        · exact h3 d hd
      · right
        refine ⟨c :: A, d, B, by rw [h1]; rfl, ?_, h3, h4⟩
        intro e he
        rcases List.mem_cons.1 he with rfl | he
        · simpa using hc
        · exact h2 e he

theorem hasAll_iff {h : LState} {σ : Spec} (o : h.Ok σ) {ls : List String} {l : String} {n : Nat} (hl : l ∈ ls)
    (hm : n ∈ h.base.byLabel.members l) :
    ls.all (fun l => (h.base.nLabels n).contains l) = true ↔ σ.HasAll ls n := by
  constructor
  · intro ha
    have ha' : ∀ l ∈ ls, l ∈ h.base.nLabels n := by
      intro l hl
      have := (List.all_eq_true.1 ha) l hl
      simpa using this
    have hn := o.lbl.alive n l hm (ha' l hl)
    exact ⟨hn, fun l hl => ((o.core.labels n hn).2 l).1 (ha' l hl)⟩
  · rintro ⟨hn, hh⟩
    rw [List.all_eq_true]
    intro l hl
    have := ((o.core.labels n hn).2 l).2 (hh l hl)
    simpa using this

/-- `Next`, when the nodes `P` are left. -/
theorem LblInv.adv {ls : List String} {K : Nat → Prop} {h : LState} {σ : Spec} {it : LblIt} {Y : List Nat}
    (hi : LblInv ls K h σ it Y) : ∃ r it', h.advLabels ls it = some (r, it') ∧
      (∀ x, r = some x → x ∉ Y ∧ σ.HasAll ls x ∧ LblInv ls K h σ it' (Y ++ [x])) ∧
      (r = none → (∀ x, K x → x ∈ Y) ∧ LblInv ls K h σ it' Y) := by
  obtain ⟨o, hlt, a, P, hit, hp, hY, hK⟩ := hi
  cases P with
  | nil =>
    have hall : ∀ x, K x → x ∈ Y := fun x hx => (hK x hx).elim id (fun h => by simp at h)
    rcases hit with rfl | ⟨rfl, -⟩
    · refine ⟨none, _, rfl, by simp, fun _ => ⟨hall, o, hlt, a, [], .inl rfl, by simp, by simp, hK⟩⟩
    · refine ⟨none, _, rfl, by simp, fun _ => ⟨hall, o, hlt, a, [], .inr ⟨rfl, rfl⟩, by simp, by simp, hK⟩⟩
  | cons c P =>
    rcases hit with rfl | ⟨-, hh⟩
    · obtain ⟨l, hl, hpe⟩ := hp (by simp)
      have hPn := hpe.nodup o.sim o.lbl.ok
      have hmem : ∀ d ∈ c :: P, d.2 ∈ h.base.byLabel.members l := fun d hd => hpe.mem o.sim o.lbl.ok (List.mem_map_of_mem hd)
      have hca : LState.cellsAfter c.1 (h.lbl.sets a).l = P := by
        obtain ⟨ha, A, hA⟩ := hpe
        obtain ⟨s, hs, hr⟩ := o.sim.at ha
        have := hr.lkeys
        rw [hA] at this ⊢
        exact cellsAfter_append this
      simp only [List.head?_cons, LState.advLabels, hca]
      rcases scan_spec (p := fun n => ls.all (fun l => (h.base.nLabels n).contains l)) (P := c :: P) with
        ⟨h1, h2, h3⟩ | ⟨A, d, B, h1, h2, h3, h4⟩
      · refine ⟨_, _, rfl, ?_, ?_⟩
        · intro x hx; rw [h1] at hx; cases hx
        · intro _
          have hall : ∀ x, K x → x ∈ Y := by
            intro x hx
            rcases hK x hx with h4 | ⟨h4, h5⟩
            · exact h4
            · obtain ⟨d, hd, rfl⟩ := List.mem_map.1 h4
              have := h3 d hd
              rw [(hasAll_iff o hl (hmem d hd)).2 h5] at this
              cases this
          exact ⟨hall, o, hlt, a, [], .inl (by rw [h2]; rfl), by simp, by simp, fun n hn => .inl (hall n hn)⟩
      · rw [h4]
        refine ⟨_, _, rfl, ?_, by simp⟩
        rintro x hx
        simp only [Option.some.injEq] at hx
        subst hx
        have hd : d ∈ c :: P := by rw [h1]; simp
        have hx := (hasAll_iff o hl (hmem d hd)).1 h3
        refine ⟨hY d hd, hx, o, ?_, a, B, .inl rfl, ?_, ?_, ?_⟩
        · intro y hy
          rw [List.mem_append, List.mem_singleton] at hy
          rcases hy with hy | rfl
          · exact hlt y hy
          · exact o.core.nLt _ hx.1
        · intro _
          obtain ⟨ha, A', hA'⟩ := hpe
          exact ⟨l, hl, ha, A' ++ A ++ [d], by rw [hA', h1]; simp⟩
        · intro e he
          rw [List.mem_append, List.mem_singleton]
          rintro (h5 | h5)
          · exact hY e (by rw [h1]; simp [he]) h5
          · rw [h1, List.map_append, List.nodup_append, List.map_cons, List.nodup_cons] at hPn
            exact hPn.2.1.1 (by rw [← h5]; exact List.mem_map_of_mem he)
        · intro n hn
          rcases hK n hn with h5 | ⟨h5, h6⟩
          · exact .inl (by simp [h5])
          · rw [h1, List.map_append, List.map_cons, List.mem_append, List.mem_cons] at h5
            rcases h5 with h5 | rfl | h5
            · obtain ⟨e, he, rfl⟩ := List.mem_map.1 h5
              have := h2 e he
              rw [(hasAll_iff o hl (hmem e (by rw [h1]; simp [he]))).2 h6] at this
              cases this
            · exact .inl (by simp)
            · exact .inr ⟨h5, h6⟩
    · cases hh

theorem LblInv.op {ls : List String} {K : Nat → Prop} {h h' : LState} {σ : Spec} {it : LblIt} {Y : List Nat} {op : Op}
    (hi : LblInv ls K h σ it Y) (hv : σ.Valid op) (hg : σ.GentleLabels ls Y op) (hs : h.step op = some h') :
    LblInv ls K h' (σ.step op) it Y := by
  obtain ⟨o, hlt, a, P, hit, hp, hY, hK⟩ := hi
  have o' := o.step hv hs
  have hlt' : ∀ y ∈ Y, y < (σ.step op).next := fun y hy => Nat.lt_of_lt_of_le (hlt y hy) (by cases op <;> first | exact Nat.le_refl _ | exact Nat.le_succ _)
  have hall : ∀ n, n ∉ Y → ls ≠ [] → σ.HasAll ls n → (σ.step op).HasAll ls n := by
    rintro n hn hls ⟨h1, h2⟩
    cases op <;> try exact ⟨h1, h2⟩
    case newNode ls' ps =>
      refine ⟨by simp [Spec.step, h1], ?_⟩
      intro l hl
      have : n ≠ σ.next := Nat.ne_of_lt (o.core.nLt n h1)
      simp only [Spec.step, upd_other _ _ this]
      exact h2 l hl
    case setLabels m new =>
      refine ⟨h1, ?_⟩
      intro l hl
      simp only [Spec.step]
      by_cases hm : n = m
      · subst hm
        rw [upd_same]
        simp only [Spec.GentleLabels, if_neg hn] at hg
        exact hg l hl (h2 l hl)
      · rw [upd_other _ _ hm]; exact h2 l hl
    case detachRemove m =>
      have hm : n ≠ m := by
        rintro rfl
        rcases hg with hg | hg
        · exact hn hg
        · cases ls with
          | nil => exact hls rfl
          | cons l ls => exact hg l (by simp) (h2 l (by simp))
      exact ⟨by simp [Spec.step, h1, hm], h2⟩
  by_cases hP : P = []
  · subst hP
    refine ⟨o', hlt', a, [], hit, by simp, by simp, ?_⟩
    intro n hn
    exact (hK n hn).imp_right (fun h => by simp at h)
  · obtain ⟨l, hl, hpe⟩ := hp hP
    obtain ⟨P', h1, h2⟩ := LState.pend_step o hv hs hpe hP
      (by
        rintro n new rfl h1 h2 h3
        obtain ⟨c, hc, rfl⟩ := List.mem_map.1 h3
        simp only [Spec.GentleLabels, if_neg (hY c hc)] at hg
        exact h2 (hg l hl h1))
      (by
        rintro n rfl h1 h3
        obtain ⟨c, hc, rfl⟩ := List.mem_map.1 h3
        rcases hg with hg | hg
        · exact hY c hc hg
        · exact hg l hl h1)
    have hhead : P'.head? = P.head? := by
      rcases h2 with rfl | ⟨el, n, rfl, -⟩
      · rfl
      · cases P with
        | nil => exact absurd rfl hP
        | cons c P => rfl
    have hsub : ∀ n ∈ P.map Prod.snd, n ∈ P'.map Prod.snd := by
      rcases h2 with rfl | ⟨el, n, rfl, -⟩
      · exact fun n hn => hn
      · intro m hm; rw [List.map_append]; exact List.mem_append_left _ hm
    refine ⟨o', hlt', a, P', ?_, fun _ => ⟨l, hl, h1⟩, ?_, ?_⟩
    · rw [hhead]
      rcases hit with hit | ⟨-, hh⟩
      · exact .inl hit
      · exact absurd hh hP
    · rcases h2 with rfl | ⟨el, n, rfl, h3⟩
      · exact hY
      · intro c hc
        rcases List.mem_append.1 hc with hc | hc
        · exact hY c hc
        · rw [List.mem_singleton] at hc
          subst hc
          rcases h3 with ⟨_, _, -, rfl⟩ | ⟨new, rfl, h4, h5⟩
          · exact fun hh => Nat.lt_irrefl _ (hlt _ hh)
          · intro hh
            simp only [Spec.GentleLabels, if_pos hh] at hg
            exact h5 (hg l hl h4)
    · intro n hn
      by_cases hnY : n ∈ Y
      · exact .inl hnY
      · rcases hK n hn with h3 | ⟨h3, h4⟩
        · exact .inl h3
        · exact .inr ⟨hsub n h3, hall n hnY (List.ne_nil_of_mem hl) h4⟩

theorem LMap.minSet_spec (h : LMap) : ∀ (ls : List String) (best : Option Nat),
    (h.minSet ls best = none → ∃ l ∈ ls, h.m.get l = none) ∧
    (h.minSet ls best = some none → best = none ∧ ls = []) ∧
    (∀ a, h.minSet ls best = some (some a) → best = some a ∨ ∃ l ∈ ls, h.m.get l = some a)
  | [], best => by simp [minSet]
  | l :: ls, best => by
    cases hg : h.m.get l with
    | none => simp [minSet, hg]
    | some s =>
      cases best with
      | none =>
        simp only [minSet, hg]
        obtain ⟨h1, h2, h3⟩ := minSet_spec h ls (some s)
        refine ⟨fun h => ?_, fun h => ?_, fun t h => ?_⟩
        · obtain ⟨l', hl', h'⟩ := h1 h; exact ⟨l', by simp [hl'], h'⟩
        · cases (h2 h).1
        · rcases h3 t h with h' | ⟨l', hl', h'⟩
          · cases h'; exact Or.inr ⟨l, by simp, hg⟩
          · exact Or.inr ⟨l', by simp [hl'], h'⟩
      | some b =>
        simp only [minSet, hg]
        obtain ⟨h1, h2, h3⟩ := minSet_spec h ls (some (if (h.sets b).size > (h.sets s).size then s else b))
        refine ⟨fun h => ?_, fun h => ?_, fun t h => ?_⟩
        · obtain ⟨l', hl', h'⟩ := h1 h; exact ⟨l', by simp [hl'], h'⟩
        · cases (h2 h).1
        · rcases h3 t h with h' | ⟨l', hl', h'⟩
          · split at h'
            · cases h'; exact Or.inr ⟨l, by simp, hg⟩
            · exact Or.inl h'
          · exact Or.inr ⟨l', by simp [hl'], h'⟩

/-- The iterator when it is made. -/
theorem LblInv.start {ls : List String} {h : LState} {σ : Spec} (o : h.Ok σ) (hls : ls ≠ []) :
    ∃ it, h.openLabels ls = some it ∧ LblInv ls (σ.HasAll ls) h σ it [] := by
  obtain ⟨h1, h2, h3⟩ := LMap.minSet_spec h.lbl ls none
  unfold LState.openLabels
  cases hm : h.lbl.minSet ls none with
  | none =>
    refine ⟨.empty, rfl, o, by simp, 0, [], .inr ⟨rfl, rfl⟩, by simp, by simp, ?_⟩
    intro n hn
    exfalso
    obtain ⟨l, hl, hg⟩ := h1 hm
    have := o.lbl.filed n hn.1 l (((o.core.labels n hn.1).2 l).2 (hn.2 l hl))
    simp [NodeMap.members, (o.sim.gone l).1 hg] at this
  | some b =>
    cases b with
    | none => exact absurd (h2 hm).2 hls
    | some a =>
      rcases h3 a hm with h' | ⟨l, hl, hg⟩
      · cases h'
      · refine ⟨_, rfl, o, by simp, a, (h.lbl.sets a).l, .inl rfl, fun _ => ⟨l, hl, hg, [], rfl⟩, by simp, ?_⟩
        intro n hn
        refine .inr ⟨?_, hn⟩
        obtain ⟨s, hs, hr⟩ := o.sim.at hg
        rw [hr.lvals (o.lbl.ok.sets l s hs)]
        have := o.lbl.filed n hn.1 l (((o.core.labels n hn.1).2 l).2 (hn.2 l hl))
        simpa [NodeMap.members, hs] using this

end LPG
