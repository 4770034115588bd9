import Verif.Proofs.LiveEdges

/-! A loop over edges. -/
namespace LPG
open HState

variable {R R' : List Nat} {q : String → Prop} {h h' : HState} {σ : Spec} {it : EdgeIt} {W : List Nat} {m : Sel} {op : Op}

theorem EdgesInv.mono (hi : EdgesInv m R q h σ it W) (hR : ∀ e ∈ R, e ∈ R') : EdgesInv m R' q h σ it W := by
  obtain ⟨xs, f, h1, h2⟩ := hi
  exact ⟨xs, f, h1.mono hR, h2⟩

theorem mem_detach {n e : Nat} (hs : σ.src e = n ∨ σ.dst e = n) : e ∉ (σ.detach n).edges := by
  intro hh
  have := (List.mem_filter.1 hh).2
  simp only [decide_eq_true_eq] at this
  exact hs.elim this.1 this.2

/-- An operation that is none of those for edges. -/
theorem EdgesInv.base {σ' : Spec} {b : State} (hi : EdgesInv m R q h σ it W) (h0 : b.slot0 = h.base.slot0)
    (h1 : b.slot1 = h.base.slot1) (h2 : b.slot2 = h.base.slot2) (h3 : b.eLabel = h.base.eLabel)
    (h4 : σ'.edges = σ.edges) (h5 : σ'.src = σ.src) (h6 : σ'.dst = σ.dst) :
    EdgesInv m R q { h with base := b } σ' it W := by
  refine hi.same ?_ (by cases m <;> rfl) h3 ?_
  · cases m
    · exact h0
    · exact h1
    · exact h2
  · intro e
    cases m <;> simp only [Spec.At, h4, h5, h6]

theorem EdgesInv.step (c : Core h.abs σ) (w : h.Wf) (hm : m.Lt σ.next) (hR : ∀ e ∈ R, e < σ.next) (hRR : ∀ e ∈ R, e ∈ R')
    (hq : (∀ l, q l) ∨ R = []) (hi : EdgesInv m R q h σ it W) (hv : σ.Valid op) (hs : h.step op = some h')
    (hdrop : ∀ e ∈ σ.edges, σ.At m e → e ∉ (σ.step op).edges → e ∉ R ∧ e ∉ W)
    (hrel : ∀ e l, op = .setEdgeLabel e l → l ≠ σ.label e → σ.At m e → (m = .all ∧ e ∈ R') ∨ (m ≠ .all ∧ e ∉ R ∧ e ∉ W)) :
    ∃ W', (∀ x ∈ W, x ∈ W') ∧
      (∀ x ∈ W', x ∈ W ∨ x = σ.next ∨ ∃ l, op = .setEdgeLabel x l ∧ m ≠ .all ∧ l ≠ σ.label x ∧ σ.At m x ∧ q l) ∧
      EdgesInv m R' q h' (σ.step op) it W' := by
  have keep : EdgesInv m R q h' (σ.step op) it W → ∃ W', (∀ x ∈ W, x ∈ W') ∧
      (∀ x ∈ W', x ∈ W ∨ x = σ.next ∨ ∃ l, op = .setEdgeLabel x l ∧ m ≠ .all ∧ l ≠ σ.label x ∧ σ.At m x ∧ q l) ∧
      EdgesInv m R' q h' (σ.step op) it W' :=
    fun h => ⟨W, fun _ hx => hx, fun _ hx => .inl hx, h.mono hRR⟩
  have old : ∀ {b : State}, h' = { h with base := b } → b.slot0 = h.base.slot0 → b.slot1 = h.base.slot1 →
      b.slot2 = h.base.slot2 → b.eLabel = h.base.eLabel → (σ.step op).edges = σ.edges → (σ.step op).src = σ.src →
      (σ.step op).dst = σ.dst → EdgesInv m R q h' (σ.step op) it W := by
    rintro b rfl h0 h1 h2 h3 h4 h5 h6
    exact hi.base h0 h1 h2 h3 h4 h5 h6
  cases op with
  | newNode ls ps => exact keep (hi.newNode c hm hs ls)
  | newEdge a b l ps =>
    obtain ⟨W', h1, h2, h3⟩ := hi.newEdge c w hv.1 hv.2.1 hR hq hs
    exact ⟨W', h1, fun x hx => (h2 x hx).imp_right .inl, h3.mono hRR⟩
  | detach n =>
    exact keep (hi.detachNode c w hv (fun e he hn hat => hdrop e he hat (mem_detach hn)) hs)
  | detachRemove n =>
    simp only [HState.step, HState.detachRemoveNode] at hs
    split at hs
    · cases hs
    · rename_i h1 hs1
      have := hi.detachNode c w hv (fun e he hn hat => hdrop e he hat (mem_detach hn)) hs1
      split at hs
      · cases hs
      · cases hs
        exact keep (this.base rfl rfl rfl rfl rfl rfl rfl)
  | setEdgeLabel e l =>
    obtain ⟨W', h1, h2, h3⟩ := hi.setEdgeLabel c w hv hRR hq (hrel e l rfl) hs
    refine ⟨W', h1, ?_, h3⟩
    intro x hx
    rcases h2 x hx with h4 | ⟨rfl, h4⟩
    · exact .inl h4
    · exact .inr (.inr ⟨l, rfl, h4⟩)
  | removeEdge e =>
    cases hs
    exact keep (hi.drop c w hv (fun hat => hdrop e hv hat (by simp [Spec.step, Spec.dropEdge])))
  | addEdgeIndex k t =>
    simp only [HState.step, HState.addEdgeIndex] at hs
    split at hs
    · cases hs; exact keep hi
    · split at hs
      · cases hs
      · split at hs
        · cases hs
        · cases hs; exact keep (old rfl rfl rfl rfl rfl rfl rfl rfl)
  | setLabels n ls =>
    cases hs; exact keep (old rfl rfl rfl rfl rfl rfl rfl rfl)
  | setNodeProp n k v =>
    simp only [HState.step, Option.map_eq_some_iff] at hs
    obtain ⟨b, h1, h2⟩ := hs
    obtain ⟨ixs, rfl⟩ := setNodeProp_frame h1
    exact keep (old h2.symm rfl rfl rfl rfl rfl rfl rfl)
  | removeNodeProp n k =>
    simp only [HState.step, Option.map_eq_some_iff] at hs
    obtain ⟨b, h1, h2⟩ := hs
    obtain ⟨ixs, rfl⟩ := removeNodeProp_frame h1
    exact keep (old h2.symm rfl rfl rfl rfl rfl rfl rfl)
  | setEdgeProp n k v =>
    simp only [HState.step, Option.map_eq_some_iff] at hs
    obtain ⟨b, h1, h2⟩ := hs
    obtain ⟨ixs, rfl⟩ := setEdgeProp_frame h1
    exact keep (old h2.symm rfl rfl rfl rfl rfl rfl rfl)
  | removeEdgeProp n k =>
    simp only [HState.step, Option.map_eq_some_iff] at hs
    obtain ⟨b, h1, h2⟩ := hs
    obtain ⟨ixs, rfl⟩ := removeEdgeProp_frame h1
    exact keep (old h2.symm rfl rfl rfl rfl rfl rfl rfl)
  | addNodeIndex k t =>
    simp only [HState.step, Option.map_eq_some_iff] at hs
    obtain ⟨b, h1, h2⟩ := hs
    obtain ⟨ixs, rfl⟩ := addNodeIndex_frame h1
    exact keep (old h2.symm rfl rfl rfl rfl rfl rfl rfl)

/-! ## The iterator is made -/

theorem EdgesInv.start {k : Want} {xs : List Nat} {g : Nat → String} (w : (h.sel m).Wf) (c : Core h.abs σ)
    (hr : EMRep (h.slot m) g (h.sel m).abs xs) (key : ∀ e ∈ xs, e ∉ R → g e = h.base.eLabel e)
    (mem : ∀ e, e ∈ xs ↔ e ∈ σ.edges ∧ σ.At m e) (hk : k = .all ∨ R = []) (hls : ∀ ls, k = .any ls → ls.Nodup) :
    ∃ it W, h.openEdges m k = some it ∧ EdgesInv m R (fun l => k.has m l = true) h σ it W ∧
      ∀ e, e ∈ W ↔ σ.Sought m k e := by
  have hlab : ∀ e ∈ xs, h.base.eLabel e = σ.label e := fun e he => (c.eattr e ((mem e).1 he).1).2.2
  have all : (∀ l, k.has m l = true) → ∃ it W, some (h.sel m).iterator = some it ∧
      EdgesInv m R (fun l => k.has m l = true) h σ it W ∧ ∀ e, e ∈ W ↔ σ.Sought m k e := by
    intro ha
    obtain ⟨W, hW, hp⟩ := Pend.iterator w hr
    refine ⟨_, W, rfl, ⟨xs, g, ⟨w, hr, key, hp, hW.nodup_iff.2 hr.nodup, fun x hx => hW.mem_iff.1 hx, fun l _ => ha l,
      fun x _ => ha _⟩, mem⟩, ?_⟩
    intro e
    rw [hW.mem_iff, mem]
    simp [Spec.Sought, ha]
  have hr' : R = [] → EMRep (h.slot m) h.base.eLabel (h.sel m).abs xs := by
    rintro rfl
    exact hr.congr (fun _ _ => rfl) (fun e he => (key e he (by simp)).symm)
  have any : ∀ ls, k = .any ls → (∀ x, k.has m x = true ↔ x ∈ ls) → ∃ it W, (h.sel m).iteratorAnyLabel h.base.eLabel ls = some it ∧
      EdgesInv m R (fun l => k.has m l = true) h σ it W ∧ ∀ e, e ∈ W ↔ σ.Sought m k e := by
    intro ls hkl hh
    have hR : R = [] := hk.resolve_left (by rw [hkl]; simp)
    obtain ⟨it, W, h1, h2, h3⟩ := Pend.iteratorAnyLabel w (hr' hR) (hls ls hkl)
    have hmem : ∀ x, x ∈ W ↔ x ∈ xs ∧ h.base.eLabel x ∈ ls := by
      intro x; rw [h2.mem_iff]; simp
    refine ⟨it, W, h1, ⟨xs, _, ⟨w, hr' hR, fun _ _ _ => rfl, h3, h2.nodup_iff.2 (hr.nodup.filter _), fun x hx => ((hmem x).1 hx).1,
      ?_, ?_⟩, mem⟩, ?_⟩
    · intro l hl; exact (hh l).2 (HMap.iteratorAnyLabel_wants h1 hl)
    · intro x hx; exact (hh _).2 ((hmem x).1 hx).2
    · intro e
      rw [hmem]
      simp only [Spec.Sought, hh]
      constructor
      · rintro ⟨a, b⟩; rw [hlab e a] at b; exact ⟨((mem e).1 a).1, ((mem e).1 a).2, b⟩
      · rintro ⟨a, b, d⟩
        have hx := (mem e).2 ⟨a, b⟩
        exact ⟨hx, by rw [hlab e hx]; exact d⟩
  cases k with
  | all => exact all (fun _ => rfl)
  | label l =>
    have hR : R = [] := hk.resolve_left (by simp)
    obtain ⟨it, h1, h3⟩ := Pend.iteratorLabel w (hr' hR) l
    have hmem : ∀ x, x ∈ xs.filter (fun x => h.base.eLabel x = l) ↔ x ∈ xs ∧ h.base.eLabel x = l := by simp
    refine ⟨it, _, h1, ⟨xs, _, ⟨w, hr' hR, fun _ _ _ => rfl, h3, hr.nodup.filter _, fun x hx => ((hmem x).1 hx).1, ?_, ?_⟩, mem⟩, ?_⟩
    · intro l hl; exact (HMap.iteratorLabel_wants h1 hl).elim
    · intro x hx; simp only [Want.has, decide_eq_true_eq]; exact ((hmem x).1 hx).2
    · intro e
      rw [hmem]
      simp only [Spec.Sought, Want.has, decide_eq_true_eq]
      constructor
      · rintro ⟨a, b⟩; rw [hlab e a] at b; exact ⟨((mem e).1 a).1, ((mem e).1 a).2, b⟩
      · rintro ⟨a, b, d⟩
        have hx := (mem e).2 ⟨a, b⟩
        exact ⟨hx, by rw [hlab e hx]; exact d⟩
  | any ls =>
    cases m with
    | all => exact any ls rfl (fun x => by simp [Want.has])
    | out n =>
      cases ls with
      | nil => exact all (fun l => by simp [Want.has])
      | cons l ls => exact any (l :: ls) rfl (fun x => by simp [Want.has])
    | inc n =>
      cases ls with
      | nil => exact all (fun l => by simp [Want.has])
      | cons l ls => exact any (l :: ls) rfl (fun x => by simp [Want.has])

/-! ## The loop -/

theorem next_le_step (σ : Spec) (op : Op) : σ.next ≤ (σ.step op).next := by
  cases op <;> first | exact Nat.le_succ _ | exact Nat.le_refl _

theorem Sel.Lt.mono {a b : Nat} (h : a ≤ b) (hm : m.Lt a) : m.Lt b := by
  cases m
  · trivial
  · exact Nat.lt_of_lt_of_le hm h
  · exact Nat.lt_of_lt_of_le hm h

/-- The edges that may be filed under an old label, after this operation. -/
def Spec.relNext (σ : Spec) (m : Sel) (R : List Nat) (op : Op) : List Nat :=
  match m with
  | .all => σ.Relabeled R op
  | _ => R

/-- The edges of the graph-wide map are filed under their labels, or they stay and all edges are sought. -/
def Spec.RelOk (m : Sel) (k : Want) : Spec → List Nat → List Seen → Prop
  | _, R, [] => k = .all ∨ R = []
  | σ, R, .did op :: log => (k = .all ∨ R = []) ∧ (∀ e ∈ R, e ∈ σ.edges → e ∈ (σ.step op).edges) ∧
      RelOk m k (σ.step op) (σ.relNext m R op) log
  | σ, R, _ :: log => RelOk m k σ R log

theorem Spec.RelOk.now {k : Want} : ∀ {log : List Seen} {σ : Spec} {R : List Nat}, σ.RelOk m k R log → k = .all ∨ R = []
  | [], _, _, h => h
  | .did _ :: _, _, _, h => h.1
  | .item _ :: log, _, _, h => Spec.RelOk.now (log := log) h
  | .last :: log, _, _, h => Spec.RelOk.now (log := log) h

theorem EdgesInv.alive {k : Want} (c : Core h.abs σ) (hk : k = .all ∨ R = [])
    (hi : EdgesInv m R (fun l => k.has m l = true) h σ it W) {x : Nat} (hx : x ∈ W) : σ.Sought m k x := by
  obtain ⟨xs, f, h1, h2⟩ := hi
  have hxs := h1.sub x hx
  obtain ⟨h3, h4⟩ := (h2 x).1 hxs
  refine ⟨h3, h4, ?_⟩
  rcases hk with rfl | rfl
  · rfl
  · have := h1.labels x hx
    rw [h1.key x hxs (by simp)] at this
    rw [← (c.eattr x h3).2.2]; exact this

theorem edges_live {k : Want} : ∀ {evs : List Event} {h h' : HState} {σ : Spec} {it it' : EdgeIt} {R Y W : List Nat}
    {K : Nat → Prop} {log : List Seen}, Core h.abs σ → h.Wf → m.Lt σ.next → (∀ e ∈ R, e < σ.next) → (m ≠ .all → R = []) →
    EdgesInv m R (fun l => k.has m l = true) h σ it W → Y.Nodup → (∀ x ∈ W, x ∉ Y) → (∀ x, K x → x ∈ Y ∨ x ∈ W) →
    (∀ y ∈ Y, y < σ.next) → live HState.step (HState.adv m) h it evs = some (log, h', it') →
    σ.ValidFrom (Seen.ops log) → σ.RelOk m k R log → σ.GentleFrom m k Y log →
    (Y ++ Seen.visited log).Nodup ∧
      (∀ p x r, log = p ++ .item x :: r → (σ.runFrom (Seen.ops p)).Sought m k x) ∧
      (∀ p r, log = p ++ .last :: r → ∀ e, K e → e ∈ Y ++ Seen.visited p) := by
  intro evs
  induction evs with
  | nil =>
    intro h h' σ it it' R Y W K log c w hm hR hRm hi hY hWY hK hlt hl hv hro hg
    simp only [live, Option.some.injEq, Prod.mk.injEq] at hl
    obtain ⟨rfl, -⟩ := hl
    exact ⟨by simpa [Seen.visited] using hY, fun p x r h => by simp at h, fun p r h => by simp at h⟩
  | cons ev evs ih =>
    intro h h' σ it it' R Y W K log c w hm hR hRm hi hY hWY hK hlt hl hv hro hg
    cases ev with
    | next =>
      obtain ⟨it1, ha, hi1⟩ : ∃ it1, h.adv m it = some (W.head?, it1) ∧
          EdgesInv m R (fun l => k.has m l = true) h σ it1 W.tail := by
        obtain ⟨xs, f, h1, h2⟩ := hi
        obtain ⟨it1, h3, h4⟩ := h1.adv
        exact ⟨it1, h3, xs, f, h4, h2⟩
      simp only [live, ha] at hl
      split at hl
      · cases hl
      · rename_i log1 z h1
        simp only [Option.some.injEq, Prod.mk.injEq] at hl
        obtain ⟨rfl, rfl⟩ := hl
        cases hW : W with
        | nil =>
          subst hW
          simp only [List.head?_nil] at hv hro hg ⊢
          obtain ⟨a1, a2, a3⟩ := ih c w hm hR hRm hi1 hY (by simp) (fun x hx => .inl ((hK x hx).resolve_right (by simp)))
            hlt h1 hv hro hg
          refine ⟨a1, ?_, ?_⟩
          · intro p x r hp
            cases p with
            | nil => simp at hp
            | cons y p =>
              simp only [List.cons_append, List.cons.injEq] at hp
              obtain ⟨rfl, hp⟩ := hp
              exact a2 p x r hp
          · intro p r hp e he
            cases p with
            | nil => simpa [Seen.visited] using (hK e he).resolve_right (by simp)
            | cons y p =>
              simp only [List.cons_append, List.cons.injEq] at hp
              obtain ⟨rfl, hp⟩ := hp
              exact a3 p r hp e he
        | cons x W1 =>
          subst hW
          simp only [List.head?_cons, List.tail_cons] at hv hro hg hi1 ⊢
          have hal := hi.alive c (hro.now) (x := x) (by simp)
          have hWn : (x :: W1).Nodup := by obtain ⟨xs, f, h1, h2⟩ := hi; exact h1.nodup
          have hxY := hWY x (by simp)
          obtain ⟨a1, a2, a3⟩ := ih (K := K) (Y := Y ++ [x]) c w hm hR hRm hi1
            (by rw [List.nodup_append]; exact ⟨hY, by simp, fun a haY b hb => by simp at hb; subst hb; rintro rfl; exact hxY haY⟩)
            (by
              intro y hy hyY
              rw [List.mem_append, List.mem_singleton] at hyY
              rcases hyY with hyY | rfl
              · exact hWY y (by simp [hy]) hyY
              · exact (List.nodup_cons.1 hWn).1 hy)
            (by
              intro y hy
              rcases hK y hy with h2 | h2
              · exact .inl (by simp [h2])
              · rcases List.mem_cons.1 h2 with rfl | h2
                · exact .inl (by simp)
                · exact .inr h2)
            (by
              intro y hy
              rw [List.mem_append, List.mem_singleton] at hy
              rcases hy with hy | rfl
              · exact hlt y hy
              · exact c.eLt _ hal.1)
            h1 hv hro hg
          refine ⟨by simpa [Seen.visited] using a1, ?_, ?_⟩
          · intro p y r hp
            cases p with
            | nil =>
              simp only [List.nil_append, List.cons.injEq, Seen.item.injEq] at hp
              obtain ⟨rfl, -⟩ := hp
              exact hal
            | cons z p =>
              simp only [List.cons_append, List.cons.injEq] at hp
              obtain ⟨rfl, hp⟩ := hp
              exact a2 p y r hp
          · intro p r hp e he
            cases p with
            | nil => simp at hp
            | cons z p =>
              simp only [List.cons_append, List.cons.injEq] at hp
              obtain ⟨rfl, hp⟩ := hp
              simpa [Seen.visited] using a3 p r hp e he
    | op o =>
      simp only [live] at hl
      split at hl
      · cases hl
      · rename_i h1 hs
        split at hl
        · cases hl
        · rename_i log1 z hl1
          simp only [Option.some.injEq, Prod.mk.injEq] at hl
          obtain ⟨rfl, rfl⟩ := hl
          obtain ⟨hv1, hv2⟩ := hv
          obtain ⟨hk, hkeep, hro2⟩ := hro
          obtain ⟨hg1, hg2⟩ := hg
          have hnW : ∀ e ∈ σ.edges, (k.has m (σ.label e) = true → σ.At m e → e ∈ Y) → e ∉ W := by
            intro e he hh heW
            have hs := hi.alive c hk heW
            exact hWY e heW (hh hs.2.2 hs.2.1)
          obtain ⟨w1, c1⟩ : h1.Wf ∧ Core h1.abs (σ.step o) := by
            rcases (step_abs w o).cases with ⟨h2, -⟩ | ⟨x, h2, h3, w1⟩
            · rw [hs] at h2; cases h2
            · rw [hs] at h2; cases h2
              exact ⟨w1, c.step hv1 h3⟩
          have hsubR : ∀ e ∈ R, e ∈ σ.relNext m R o := by
            intro e he
            cases m with
            | all =>
              simp only [Spec.relNext]
              cases o <;> simp only [Spec.Relabeled] <;> try exact he
              split
              · exact he
              · exact List.mem_cons_of_mem _ he
            | out n => exact he
            | inc n => exact he
          obtain ⟨W', b1, b2, b3⟩ := hi.step (R' := σ.relNext m R o) c w hm hR hsubR
            (hk.imp_left (fun h l => by subst h; rfl)) hv1 hs
            (by
              intro e he hat hd
              refine ⟨fun hh => hd (hkeep e hh he), hnW e he ?_⟩
              intro hh _
              exact hg1.1 e he ⟨he, hat, hh⟩ hd)
            (by
              rintro e l rfl hne hat
              by_cases hma : m = .all
              · subst hma
                exact .inl ⟨rfl, by simp [Spec.relNext, Spec.Relabeled, hne]⟩
              · refine .inr ⟨hma, by rw [hRm hma]; simp, hnW e hv1 ?_⟩
                intro hh _
                have := hg1.2
                simp only [Spec.LabelsGently] at this
                rcases this with h3 | h3 | h3 | h3
                · exact absurd h3 hma
                · exact absurd h3 hne
                · exact absurd hat h3
                · exact h3.1.resolve_left (by rw [hh]; simp))
          have hle := next_le_step σ o
          have hRlt : ∀ e ∈ σ.relNext m R o, e < (σ.step o).next := by
            intro e he
            have : e ∈ R ∨ e ∈ σ.edges := by
              cases m with
              | all =>
                simp only [Spec.relNext] at he
                cases o <;> simp only [Spec.Relabeled] at he <;> try exact .inl he
                split at he
                · exact .inl he
                · rcases List.mem_cons.1 he with rfl | he
                  · exact .inr hv1
                  · exact .inl he
              | out n => exact .inl he
              | inc n => exact .inl he
            rcases this with h3 | h3
            · exact Nat.lt_of_lt_of_le (hR e h3) hle
            · exact Nat.lt_of_lt_of_le (c.eLt e h3) hle
          obtain ⟨a1, a2, a3⟩ := ih (K := K) c1 w1 (hm.mono hle) hRlt
            (fun hma => by cases m with
              | all => exact absurd rfl hma
              | out n => exact hRm hma
              | inc n => exact hRm hma) b3 hY
            (by
              intro x hx hxY
              rcases b2 x hx with h3 | rfl | ⟨l, rfl, h3, h4, h5, h6⟩
              · exact hWY x h3 hxY
              · exact Nat.lt_irrefl _ (hlt _ hxY)
              · have := hg1.2
                simp only [Spec.LabelsGently] at this
                rcases this with h7 | h7 | h7 | h7
                · exact h3 h7
                · exact h4 h7
                · exact h7 h5
                · exact h7.2.elim (fun h8 => by rw [h6] at h8; cases h8) (fun h8 => h8 hxY))
            (fun x hx => (hK x hx).imp_right (b1 x)) (fun y hy => Nat.lt_of_lt_of_le (hlt y hy) hle) hl1 hv2 hro2 hg2
          refine ⟨a1, ?_, ?_⟩
          · intro p y r hp
            cases p with
            | nil => simp at hp
            | cons z p =>
              simp only [List.cons_append, List.cons.injEq] at hp
              obtain ⟨rfl, hp⟩ := hp
              exact a2 p y r hp
          · intro p r hp e he
            cases p with
            | nil => simp at hp
            | cons z p =>
              simp only [List.cons_append, List.cons.injEq] at hp
              obtain ⟨rfl, hp⟩ := hp
              exact a3 p r hp e he

end LPG
