import Verif.Proofs.MapInv
import Verif.Proofs.EdgeHeapGraph
import Verif.Proofs.Detach
import Verif.Spec.LiveEdges

/-! One iterator over edges, and the operations of the graph. -/
namespace LPG
open HState

theorem HMap.remove_other {P : Slot} {f : Nat → String} {h : HMap} {xs : List Nat} {e x : Nat} (w : h.Wf)
    (hr : EMRep P f h.abs xs) (he : e ∈ xs) (hx : x ∉ xs) : (h.remove P f e).1 x = P x := by
  rw [(HMap.remove_abs (P := P) (label := f) w e).2.1]
  exact (EdgeMap.remove_spec hr he).2 x hx

theorem HMap.add_other {P P' : Slot} {f : Nat → String} {h h' : HMap} {xs : List Nat} {e x : Nat} (w : h.Wf)
    (hr : EMRep P f h.abs xs) (he : e ∉ xs) (hadd : h.add P f e = some (P', h')) (hx : x ∉ xs) (hxe : x ≠ e) : P' x = P x := by
  obtain ⟨P2, em2, b1, b2, b3⟩ := EdgeMap.add_spec hr he
  have := (HMap.add_abs (P := P) (label := f) w e).2
  rw [hadd, b1] at this
  simp only [Option.map_some, Option.some.injEq, Prod.mk.injEq] at this
  rw [this.1]
  exact b3 x hx hxe

variable {R : List Nat} {q : String → Prop} {h h' : HState} {σ : Spec} {it : EdgeIt} {xs W : List Nat}
  {f : Nat → String} {e n : Nat}

/-! ## disconnect -/

theorem out_disconnect (c : Core h.abs σ) (w : h.Wf) (he : e ∈ σ.edges)
    (hi : MapInv R q h.base.slot1 h.base.eLabel (h.outgoing n) it xs W f) (hx : ∀ x, x ∈ xs ↔ x ∈ σ.edges ∧ σ.src x = n)
    (hd : σ.src e = n → e ∉ R ∧ e ∉ W) :
    ∃ xs', MapInv R q (h.disconnect e).base.slot1 (h.disconnect e).base.eLabel ((h.disconnect e).outgoing n) it xs' W f ∧
      (∀ x, x ∈ xs' ↔ x ∈ (σ.dropEdge e).edges ∧ σ.src x = n) ∧
      (σ.src e = n → it.walks = true → ((h.disconnect e).base.slot1 e).next = none) := by
  have hsrc : h.base.eFrom e = σ.src e := (c.eattr e he).1
  have e1 : (h.disconnect e).base.slot1 = ((h.outgoing (h.base.eFrom e)).remove h.base.slot1 h.base.eLabel e).1 := rfl
  have e2 : (h.disconnect e).outgoing = upd h.outgoing (h.base.eFrom e)
      ((h.outgoing (h.base.eFrom e)).remove h.base.slot1 h.base.eLabel e).2 := rfl
  have e3 : (h.disconnect e).base.eLabel = h.base.eLabel := rfl
  rw [e1, e2, e3, hsrc]
  by_cases hn : σ.src e = n
  · subst hn
    obtain ⟨m1, m2⟩ := hi.remove ((hx e).2 ⟨he, rfl⟩) (hd rfl).1 (hd rfl).2
    rw [upd_same]
    refine ⟨_, m1, ?_, fun _ => m2⟩
    intro x
    rw [hi.rep.nodup.mem_erase_iff, hx]
    simp only [Spec.dropEdge, List.mem_filter, decide_eq_true_eq]
    grind
  · rw [upd_other _ _ (Ne.symm hn)]
    obtain ⟨xo, hxo, hro⟩ := c.out _ (c.ends e he).1
    refine ⟨xs, hi.congr ?_ (fun _ _ _ => rfl), ?_, fun hh => absurd hh hn⟩
    · intro x hxx
      refine HMap.remove_other (f := h.base.eLabel) (w.out _) hro (hxo.mem_iff.2 (by simp [he])) ?_
      intro hh
      have := (List.mem_filter.1 (hxo.mem_iff.1 hh)).2
      simp only [decide_eq_true_eq] at this
      exact hn (this ▸ ((hx x).1 hxx).2)
    · intro x
      rw [hx]
      simp only [Spec.dropEdge, List.mem_filter, decide_eq_true_eq]
      grind

theorem inc_disconnect (c : Core h.abs σ) (w : h.Wf) (he : e ∈ σ.edges)
    (hi : MapInv R q h.base.slot2 h.base.eLabel (h.incoming n) it xs W f) (hx : ∀ x, x ∈ xs ↔ x ∈ σ.edges ∧ σ.dst x = n)
    (hd : σ.dst e = n → e ∉ R ∧ e ∉ W) :
    ∃ xs', MapInv R q (h.disconnect e).base.slot2 (h.disconnect e).base.eLabel ((h.disconnect e).incoming n) it xs' W f ∧
      (∀ x, x ∈ xs' ↔ x ∈ (σ.dropEdge e).edges ∧ σ.dst x = n) ∧
      (σ.dst e = n → it.walks = true → ((h.disconnect e).base.slot2 e).next = none) := by
  have hdst : h.base.eTo e = σ.dst e := (c.eattr e he).2.1
  have e1 : (h.disconnect e).base.slot2 = ((h.incoming (h.base.eTo e)).remove h.base.slot2 h.base.eLabel e).1 := rfl
  have e2 : (h.disconnect e).incoming = upd h.incoming (h.base.eTo e)
      ((h.incoming (h.base.eTo e)).remove h.base.slot2 h.base.eLabel e).2 := rfl
  have e3 : (h.disconnect e).base.eLabel = h.base.eLabel := rfl
  rw [e1, e2, e3, hdst]
  by_cases hn : σ.dst e = n
  · subst hn
    obtain ⟨m1, m2⟩ := hi.remove ((hx e).2 ⟨he, rfl⟩) (hd rfl).1 (hd rfl).2
    rw [upd_same]
    refine ⟨_, m1, ?_, fun _ => m2⟩
    intro x
    rw [hi.rep.nodup.mem_erase_iff, hx]
    simp only [Spec.dropEdge, List.mem_filter, decide_eq_true_eq]
    grind
  · rw [upd_other _ _ (Ne.symm hn)]
    obtain ⟨xo, hxo, hro⟩ := c.inc _ (c.ends e he).2
    refine ⟨xs, hi.congr ?_ (fun _ _ _ => rfl), ?_, fun hh => absurd hh hn⟩
    · intro x hxx
      refine HMap.remove_other (f := h.base.eLabel) (w.inc _) hro (hxo.mem_iff.2 (by simp [he])) ?_
      intro hh
      have := (List.mem_filter.1 (hxo.mem_iff.1 hh)).2
      simp only [decide_eq_true_eq] at this
      exact hn (this ▸ ((hx x).1 hxx).2)
    · intro x
      rw [hx]
      simp only [Spec.dropEdge, List.mem_filter, decide_eq_true_eq]
      grind

/-! ## connect -/

theorem connect_maps (hs : h.connect e = some h') : ∃ p2 im p1 om,
    (h.incoming (h.base.eTo e)).add h.base.slot2 h.base.eLabel e = some (p2, im) ∧
    (h.outgoing (h.base.eFrom e)).add h.base.slot1 h.base.eLabel e = some (p1, om) ∧
    h' = { h with base := { h.base with slot2 := p2, slot1 := p1 }, incoming := upd h.incoming (h.base.eTo e) im,
                  outgoing := upd h.outgoing (h.base.eFrom e) om } := by
  unfold HState.connect at hs
  split at hs
  · cases hs
  · rename_i p2 im h1
    simp only at hs
    split at hs
    · cases hs
    · rename_i p1 om h2
      cases hs
      exact ⟨p2, im, p1, om, h1, h2, rfl⟩

theorem out_connect (c : Core h.abs σ) (w : h.Wf) (hn : h.base.eFrom e ∈ σ.nodes) (he : e ∉ σ.edges)
    (hi : MapInv R q h.base.slot1 h.base.eLabel (h.outgoing n) it xs W f) (hx : ∀ x, x ∈ xs ↔ x ∈ σ.edges ∧ σ.src x = n)
    (hq : (∀ l, q l) ∨ R = []) (hnx : h.base.eFrom e = n → it.walks = true → (h.base.slot1 e).next = none)
    (hs : h.connect e = some h') :
    ∃ f' W' xs', (∀ x ∈ W, x ∈ W') ∧ (∀ x ∈ W', x ∈ W ∨ (x = e ∧ h.base.eFrom e = n ∧ q (h.base.eLabel e))) ∧
      MapInv R q h'.base.slot1 h'.base.eLabel (h'.outgoing n) it xs' W' f' ∧
      ∀ x, x ∈ xs' ↔ x ∈ xs ∨ (x = e ∧ h.base.eFrom e = n) := by
  obtain ⟨p2, im, p1, om, h1, h2, rfl⟩ := connect_maps hs
  have hex : e ∉ xs := fun hh => he ((hx e).1 hh).1
  by_cases hne : h.base.eFrom e = n
  · subst hne
    obtain ⟨f', W', i1, i2, i3⟩ := hi.add hq hex (hnx rfl) h2
    refine ⟨f', W', xs ++ [e], fun x hx => i1.sub hx, ?_, by simpa only [upd_same] using i2, by simp⟩
    intro x hxW
    rcases i1.mem hxW with h3 | rfl
    · exact .inl h3
    · exact .inr ⟨rfl, rfl, i3 hxW⟩
  · obtain ⟨xo, hxo, hro⟩ := c.out _ hn
    refine ⟨f, W, xs, fun x hx => hx, fun x hx => .inl hx, ?_, by simp [hne]⟩
    show MapInv R q p1 h.base.eLabel (upd h.outgoing (h.base.eFrom e) om n) it xs W f
    rw [upd_other _ _ (Ne.symm hne)]
    refine hi.congr ?_ (fun _ _ _ => rfl)
    intro x hxx
    refine HMap.add_other (f := h.base.eLabel) (w.out _) hro
      (fun hh => he (List.mem_filter.1 (hxo.mem_iff.1 hh)).1) h2 ?_ (fun hh => hex (hh ▸ hxx))
    intro hh
    have := (List.mem_filter.1 (hxo.mem_iff.1 hh)).2
    simp only [decide_eq_true_eq] at this
    exact hne (this ▸ ((hx x).1 hxx).2)

theorem inc_connect (c : Core h.abs σ) (w : h.Wf) (hn : h.base.eTo e ∈ σ.nodes) (he : e ∉ σ.edges)
    (hi : MapInv R q h.base.slot2 h.base.eLabel (h.incoming n) it xs W f) (hx : ∀ x, x ∈ xs ↔ x ∈ σ.edges ∧ σ.dst x = n)
    (hq : (∀ l, q l) ∨ R = []) (hnx : h.base.eTo e = n → it.walks = true → (h.base.slot2 e).next = none)
    (hs : h.connect e = some h') :
    ∃ f' W' xs', (∀ x ∈ W, x ∈ W') ∧ (∀ x ∈ W', x ∈ W ∨ (x = e ∧ h.base.eTo e = n ∧ q (h.base.eLabel e))) ∧
      MapInv R q h'.base.slot2 h'.base.eLabel (h'.incoming n) it xs' W' f' ∧
      ∀ x, x ∈ xs' ↔ x ∈ xs ∨ (x = e ∧ h.base.eTo e = n) := by
  obtain ⟨p2, im, p1, om, h1, h2, rfl⟩ := connect_maps hs
  have hex : e ∉ xs := fun hh => he ((hx e).1 hh).1
  by_cases hne : h.base.eTo e = n
  · subst hne
    obtain ⟨f', W', i1, i2, i3⟩ := hi.add hq hex (hnx rfl) h1
    refine ⟨f', W', xs ++ [e], fun x hx => i1.sub hx, ?_, by simpa only [upd_same] using i2, by simp⟩
    intro x hxW
    rcases i1.mem hxW with h3 | rfl
    · exact .inl h3
    · exact .inr ⟨rfl, rfl, i3 hxW⟩
  · obtain ⟨xo, hxo, hro⟩ := c.inc _ hn
    refine ⟨f, W, xs, fun x hx => hx, fun x hx => .inl hx, ?_, by simp [hne]⟩
    show MapInv R q p2 h.base.eLabel (upd h.incoming (h.base.eTo e) im n) it xs W f
    rw [upd_other _ _ (Ne.symm hne)]
    refine hi.congr ?_ (fun _ _ _ => rfl)
    intro x hxx
    refine HMap.add_other (f := h.base.eLabel) (w.inc _) hro
      (fun hh => he (List.mem_filter.1 (hxo.mem_iff.1 hh)).1) h1 ?_ (fun hh => hex (hh ▸ hxx))
    intro hh
    have := (List.mem_filter.1 (hxo.mem_iff.1 hh)).2
    simp only [decide_eq_true_eq] at this
    exact hne (this ▸ ((hx x).1 hxx).2)

/-! ## The invariant -/

/-- The edge map of an iterator in this state. `W`: what it would still yield. -/
def EdgesInv (m : Sel) (R : List Nat) (q : String → Prop) (h : HState) (σ : Spec) (it : EdgeIt) (W : List Nat) : Prop :=
  ∃ xs f, MapInv R q (h.slot m) h.base.eLabel (h.sel m) it xs W f ∧ ∀ e, e ∈ xs ↔ e ∈ σ.edges ∧ σ.At m e

variable {m : Sel}

/-- An operation that changes neither the edge maps nor the edges. -/
theorem EdgesInv.same {σ' : Spec} (hi : EdgesInv m R q h σ it W) (h1 : h'.slot m = h.slot m) (h2 : h'.sel m = h.sel m)
    (h3 : h'.base.eLabel = h.base.eLabel) (h4 : ∀ e, e ∈ σ'.edges ∧ σ'.At m e ↔ e ∈ σ.edges ∧ σ.At m e) :
    EdgesInv m R q h' σ' it W := by
  obtain ⟨xs, f, h5, h6⟩ := hi
  refine ⟨xs, f, ?_, fun e => (h6 e).trans (h4 e).symm⟩
  rw [h1, h2, h3]; exact h5

theorem EdgesInv.drop (c : Core h.abs σ) (w : h.Wf) (he : e ∈ σ.edges) (hi : EdgesInv m R q h σ it W)
    (hd : σ.At m e → e ∉ R ∧ e ∉ W) : EdgesInv m R q ((h.disconnect e).dropEdge e) (σ.dropEdge e) it W := by
  obtain ⟨xs, f, h5, h6⟩ := hi
  cases m with
  | all =>
    obtain ⟨d1, d2⟩ := hd trivial
    have hex : e ∈ xs := (h6 e).2 ⟨he, trivial⟩
    refine ⟨xs.erase e, f, (h5.remove hex d1 d2).1, ?_⟩
    intro x
    rw [h5.rep.nodup.mem_erase_iff, h6]
    simp only [Spec.dropEdge, List.mem_filter, decide_eq_true_eq, Spec.At, and_true]
    grind
  | out n =>
    obtain ⟨xs', a1, a2, -⟩ := out_disconnect c w he h5 h6 hd
    exact ⟨xs', f, a1, a2⟩
  | inc n =>
    obtain ⟨xs', a1, a2, -⟩ := inc_disconnect c w he h5 h6 hd
    exact ⟨xs', f, a1, a2⟩

theorem EdgesInv.detachEdge (c : Core h.abs σ) (w : h.Wf) (he : e ∈ σ.edges) (hi : EdgesInv m R q h σ it W)
    (hd : σ.At m e → e ∉ R ∧ e ∉ W) (hs : h.detachEdge e = some h') : EdgesInv m R q h' (σ.dropEdge e) it W := by
  have := hi.drop c w he hd
  unfold HState.detachEdge at hs
  simp only at hs
  split at hs
  · cases hs
  · cases hs
    exact this.same (by cases m <;> rfl) (by cases m <;> rfl) rfl (fun _ => Iff.rfl)

/-! ## detachNode -/

theorem HState.detachEdges_ind {Q : HState → Spec → Prop} {good : Nat → Prop}
    (hstep : ∀ h h' σ e, Core h.abs σ → h.Wf → Q h σ → e ∈ σ.edges → good e → h.detachEdge e = some h' → Q h' (σ.dropEdge e))
    {es : List Nat} : ∀ {h h' : HState} {σ : Spec}, Core h.abs σ → h.Wf → Q h σ → es.Nodup →
    (∀ e ∈ es, e ∈ σ.edges ∧ good e) → h.detachEdges es = some h' →
    Core h'.abs { σ with edges := σ.edges.filter (fun e => e ∉ es) } ∧ h'.Wf ∧
      Q h' { σ with edges := σ.edges.filter (fun e => e ∉ es) } := by
  induction es with
  | nil =>
    intro h h' σ c w hq _ _ hs
    simp only [HState.detachEdges, Option.some.injEq] at hs; subst hs
    have : σ.edges.filter (fun e => e ∉ ([] : List Nat)) = σ.edges := by simp
    rw [this]; exact ⟨c, w, hq⟩
  | cons e es ih =>
    intro h h' σ c w hq hn hm hs
    rw [HState.detachEdges] at hs
    split at hs
    · cases hs
    · rename_i h1 hs1
      have hsame := detachEdge_abs w e
      rcases hsame.cases with ⟨h2, -⟩ | ⟨x, h2, h3, w1⟩
      · rw [hs1] at h2; cases h2
      · rw [hs1] at h2; cases h2
        have c1 := c.detachEdge (hm e (by simp)).1 h3
        have q1 := hstep _ _ _ _ c w hq (hm e (by simp)).1 (hm e (by simp)).2 hs1
        have hn' := List.nodup_cons.1 hn
        have := ih c1 w1 q1 hn'.2 (by
          intro x hx
          simp only [Spec.dropEdge, List.mem_filter]
          refine ⟨⟨(hm x (by simp [hx])).1, ?_⟩, (hm x (by simp [hx])).2⟩
          simp; rintro rfl; exact hn'.1 hx) hs
        have e1 : ({ σ.dropEdge e with edges := (σ.dropEdge e).edges.filter (fun x => x ∉ es) } : Spec) =
            { σ with edges := σ.edges.filter (fun x => x ∉ e :: es) } := by
          simp only [Spec.dropEdge, List.filter_filter]
          congr 1
          apply List.filter_congr
          intro x _
          simp only [List.mem_cons]
          by_cases hx : x = e <;> by_cases hx2 : x ∈ es <;> simp [hx, hx2]
        rw [e1] at this
        exact this

theorem HState.detachNode_ind {Q : HState → Spec → Prop} {good : Nat → Prop}
    (hstep : ∀ h h' σ e, Core h.abs σ → h.Wf → Q h σ → e ∈ σ.edges → good e → h.detachEdge e = some h' → Q h' (σ.dropEdge e))
    {h h' : HState} {σ : Spec} {n : Nat}
    (hinc : ∀ (h : HState) (σ : Spec), (∀ e ∈ σ.edges, σ.dst e ≠ n) → Q h σ →
      Q { h with incoming := upd h.incoming n (h.incoming n).clear } σ)
    (hout : ∀ (h : HState) (σ : Spec), (∀ e ∈ σ.edges, σ.src e ≠ n) → Q h σ →
      Q { h with outgoing := upd h.outgoing n (h.outgoing n).clear } σ)
    (c : Core h.abs σ) (w : h.Wf) (hq : Q h σ) (hn : n ∈ σ.nodes)
    (hg : ∀ e ∈ σ.edges, σ.src e = n ∨ σ.dst e = n → good e)
    (hs : h.detachNode n = some h') : Q h' (σ.detach n) := by
  unfold HState.detachNode at hs
  obtain ⟨xi, hxi, hri⟩ := c.inc n hn
  obtain ⟨ys, hy1, hy2⟩ := hri.enum (c.fuel hxi)
  have hy1' : (h.incoming n).enum h.base.slot2 h.base.idBase = some ys := by
    rw [HMap.enum_abs (w.inc n)]; exact hy1
  have hyn : ys.Nodup := hy2.nodup_iff.2 hri.nodup
  have hmem : ∀ e, e ∈ ys ↔ e ∈ σ.edges ∧ σ.dst e = n := by
    intro e; rw [hy2.mem_iff, hxi.mem_iff]; simp
  rw [hy1'] at hs
  simp only at hs
  split at hs
  · cases hs
  · rename_i h1 hs1
    obtain ⟨c1, w1, q1⟩ := HState.detachEdges_ind hstep c w hq hyn
      (fun e hh => ⟨((hmem e).1 hh).1, hg e ((hmem e).1 hh).1 (Or.inr ((hmem e).1 hh).2)⟩) hs1
    have e1 : σ.edges.filter (fun e => e ∉ ys) = σ.edges.filter (fun e => σ.dst e ≠ n) := by
      apply List.filter_congr
      intro x hx
      simp [hmem, hx]
    rw [e1] at c1 q1
    have hno : ∀ e ∈ σ.edges.filter (fun e => σ.dst e ≠ n), σ.dst e ≠ n := fun e he => by
      simpa using (List.mem_filter.1 he).2
    have q1' := hinc _ _ hno q1
    have w1' : HState.Wf { h1 with incoming := upd h1.incoming n (h1.incoming n).clear } :=
      ⟨upd_wf w1.inc (w1.inc n).clear, w1.out, w1.all⟩
    have c1' : Core (HState.abs { h1 with incoming := upd h1.incoming n (h1.incoming n).clear })
        { σ with edges := σ.edges.filter (fun e => σ.dst e ≠ n) } := by
      have := c1.clearIncoming (n := n) hno
      have e5 : HState.abs { h1 with incoming := upd h1.incoming n (h1.incoming n).clear } =
          { h1.abs with incoming := upd h1.abs.incoming n EdgeMap.empty } := by
        simp only [HState.abs, upd_abs, HMap.abs_clear]
      rw [e5]; exact this
    obtain ⟨xo, hxo, hro⟩ := c1'.out n hn
    obtain ⟨zs, hz1, hz2⟩ := hro.enum (c1'.fuel hxo)
    have hz1' : (h1.outgoing n).enum h1.base.slot1 h1.base.idBase = some zs := by
      rw [HMap.enum_abs (w1.out n)]; exact hz1
    have hmem2 : ∀ e, e ∈ zs ↔ (e ∈ σ.edges ∧ σ.dst e ≠ n) ∧ σ.src e = n := by
      intro e; rw [hz2.mem_iff, hxo.mem_iff]; simp; grind
    rw [hz1'] at hs
    simp only at hs
    split at hs
    · cases hs
    · rename_i h2 hs2
      obtain ⟨c2, w2, q2⟩ := HState.detachEdges_ind hstep c1' w1' q1' (hz2.nodup_iff.2 hro.nodup) (fun e hh => by
        have hm := (hmem2 e).1 hh
        exact ⟨by simp [hm.1.1, hm.1.2], hg e hm.1.1 (Or.inl hm.2)⟩) hs2
      have e2 : (σ.edges.filter (fun e => σ.dst e ≠ n)).filter (fun e => e ∉ zs) =
          σ.edges.filter (fun e => σ.src e ≠ n ∧ σ.dst e ≠ n) := by
        rw [List.filter_filter]
        apply List.filter_congr
        intro x hx
        simp only [hmem2, hx]
        by_cases a : σ.dst x = n <;> by_cases b : σ.src x = n <;> simp [a, b]
      simp only at q2
      rw [e2] at q2
      cases hs
      refine hout _ _ ?_ q2
      intro e he
      have := (List.mem_filter.1 he).2
      simp only [decide_eq_true_eq] at this
      exact this.1

theorem EdgesInv.detachNode (c : Core h.abs σ) (w : h.Wf) (hn : n ∈ σ.nodes) (hi : EdgesInv m R q h σ it W)
    (hd : ∀ e ∈ σ.edges, σ.src e = n ∨ σ.dst e = n → σ.At m e → e ∉ R ∧ e ∉ W) (hs : h.detachNode n = some h') :
    EdgesInv m R q h' (σ.detach n) it W := by
  refine (HState.detachNode_ind (Q := fun h τ => EdgesInv m R q h τ it W ∧ τ.src = σ.src ∧ τ.dst = σ.dst)
    (good := fun e => σ.At m e → e ∉ R ∧ e ∉ W) ?_ ?_ ?_ c w ⟨hi, rfl, rfl⟩ hn hd hs).1
  · rintro h h' τ e c w ⟨hi, h1, h2⟩ he hg hs
    refine ⟨hi.detachEdge c w he ?_ hs, h1, h2⟩
    intro hat
    apply hg
    cases m with
    | all => trivial
    | out n => simpa only [Spec.At, h1] using hat
    | inc n => simpa only [Spec.At, h2] using hat
  · rintro h τ hno ⟨hi, h1, h2⟩
    refine ⟨?_, h1, h2⟩
    cases m with
    | all => exact hi
    | out k => exact hi
    | inc k =>
      by_cases hk : k = n
      · subst hk
        obtain ⟨xs, f, h5, h6⟩ := hi
        have : xs = [] := by
          rw [List.eq_nil_iff_forall_not_mem]
          intro x hx
          exact hno x ((h6 x).1 hx).1 ((h6 x).1 hx).2
        subst this
        refine ⟨[], f, ?_, h6⟩
        show MapInv R q h.base.slot2 h.base.eLabel (upd h.incoming k (h.incoming k).clear k) it [] W f
        rw [upd_same]
        exact h5.clear
      · exact hi.same rfl (upd_other _ _ hk) rfl (fun _ => Iff.rfl)
  · rintro h τ hno ⟨hi, h1, h2⟩
    refine ⟨?_, h1, h2⟩
    cases m with
    | all => exact hi
    | inc k => exact hi
    | out k =>
      by_cases hk : k = n
      · subst hk
        obtain ⟨xs, f, h5, h6⟩ := hi
        have : xs = [] := by
          rw [List.eq_nil_iff_forall_not_mem]
          intro x hx
          exact hno x ((h6 x).1 hx).1 ((h6 x).1 hx).2
        subst this
        refine ⟨[], f, ?_, h6⟩
        show MapInv R q h.base.slot1 h.base.eLabel (upd h.outgoing k (h.outgoing k).clear k) it [] W f
        rw [upd_same]
        exact h5.clear
      · exact hi.same rfl (upd_other _ _ hk) rfl (fun _ => Iff.rfl)

/-! ## NewNode, NewEdge -/

/-- The node of the loop exists, or existed. -/
def Sel.Lt (k : Nat) : Sel → Prop
  | .all => True
  | .out n => n < k
  | .inc n => n < k

theorem EdgesInv.newNode {ls : List String} {ps : Props} (c : Core h.abs σ) (hm : m.Lt σ.next) (hi : EdgesInv m R q h σ it W)
    (hs : h.newNode ls ps = some h') (ls' : List String) : EdgesInv m R q h' (σ.step (.newNode ls' ps)) it W := by
  unfold HState.newNode at hs
  have hnx : h.base.idBase = σ.next := c.next
  split at hs
  · cases hs
  · rename_i b hb
    obtain ⟨ixs, _, rfl⟩ := newNode_frame hb
    cases hs
    refine hi.same (by cases m <;> rfl) ?_ rfl (fun _ => Iff.rfl)
    cases m with
    | all => rfl
    | out n => exact upd_other _ _ (by rw [hnx]; exact Nat.ne_of_lt hm)
    | inc n => exact upd_other _ _ (by rw [hnx]; exact Nat.ne_of_lt hm)

/-- The state before the first edge map of `newEdge` changes. -/
def HState.allocEdge (h : HState) (a b : Nat) (l : String) (ps : Props) : HState :=
  { h with base := h.base.allocEdge a b l ps }

theorem EdgesInv.newEdge {a b : Nat} {l : String} {ps : Props} (c : Core h.abs σ) (w : h.Wf) (ha : a ∈ σ.nodes)
    (hb : b ∈ σ.nodes) (hR : ∀ e ∈ R, e < σ.next) (hq : (∀ l, q l) ∨ R = []) (hi : EdgesInv m R q h σ it W)
    (hs : h.newEdge a b l ps = some h') :
    ∃ W', (∀ x ∈ W, x ∈ W') ∧ (∀ x ∈ W', x ∈ W ∨ x = σ.next) ∧ EdgesInv m R q h' (σ.step (.newEdge a b l ps)) it W' := by
  have hnx : h.base.idBase = σ.next := c.next
  have c0 : Core (h.allocEdge a b l ps).abs _ := c.allocEdge a b l ps
  obtain ⟨xs, f, h5, h6⟩ := hi
  have hxs : ∀ x ∈ xs, x ≠ σ.next := fun x hx => Nat.ne_of_lt (c.eLt x ((h6 x).1 hx).1)
  have hne : σ.next ∉ σ.edges := fun hh => Nat.lt_irrefl _ (c.eLt _ hh)
  have h50 : MapInv R q ((h.allocEdge a b l ps).slot m) (h.allocEdge a b l ps).base.eLabel ((h.allocEdge a b l ps).sel m)
      it xs W f := by
    have e1 : (h.allocEdge a b l ps).sel m = h.sel m := by cases m <;> rfl
    rw [e1]
    refine h5.congr ?_ ?_
    · intro x hx
      cases m <;> exact upd_other _ _ (by rw [hnx]; exact hxs x hx)
    · intro x hx _
      exact upd_other _ _ (by rw [hnx]; exact hxs x hx)
  have hnext : ((h.allocEdge a b l ps).slot m σ.next).next = none := by
    cases m <;> simp [HState.slot, HState.allocEdge, State.allocEdge, hnx]
  have hlab : (h.allocEdge a b l ps).base.eLabel σ.next = l := by simp [HState.allocEdge, State.allocEdge, hnx]
  have hfrom : (h.allocEdge a b l ps).base.eFrom σ.next = a := by simp [HState.allocEdge, State.allocEdge, hnx]
  have hto : (h.allocEdge a b l ps).base.eTo σ.next = b := by simp [HState.allocEdge, State.allocEdge, hnx]
  have w0 : (h.allocEdge a b l ps).Wf := ⟨w.inc, w.out, w.all⟩
  have hs' : (match (h.allocEdge a b l ps).allEdges.add (h.allocEdge a b l ps).base.slot0 (h.allocEdge a b l ps).base.eLabel
        σ.next with
      | none => none
      | some (p0, m) =>
        match HState.connect { h.allocEdge a b l ps with
            base := { (h.allocEdge a b l ps).base with slot0 := p0 }, allEdges := m } σ.next with
        | none => none
        | some h =>
          match Indexes.addAll σ.next ps h.base.edgeIx with
          | none => none
          | some ixs => some { h with base := { h.base with edgeIx := ixs } }) = some h' := by
    rw [← hnx]; exact hs
  split at hs'
  · cases hs'
  · rename_i p0 ae hadd
    split at hs'
    · cases hs'
    · rename_i h2 hconn
      split at hs'
      · cases hs'
      · cases hs'
        cases m with
        | all =>
          obtain ⟨p2, im, p1, om, -, -, rfl⟩ := connect_maps hconn
          obtain ⟨f', W', i1, i2, -⟩ := h50.add (e := σ.next) hq (fun hh => hxs _ hh rfl) (fun _ => hnext) hadd
          refine ⟨W', fun x hx => i1.sub hx, fun x hx => i1.mem hx, xs ++ [σ.next], f', i2, ?_⟩
          intro x
          simp only [List.mem_append, List.mem_singleton, h6, Spec.step, Spec.At, and_true]
        | out n =>
          have hx0 : ∀ x, x ∈ xs ↔ x ∈ σ.edges ∧ upd σ.src σ.next a x = n := by
            intro x
            rw [h6 x]
            simp only [Spec.At]
            constructor
            · rintro ⟨h7, h8⟩; exact ⟨h7, by rw [upd_other _ _ (Nat.ne_of_lt (c.eLt x h7))]; exact h8⟩
            · rintro ⟨h7, h8⟩; rw [upd_other _ _ (Nat.ne_of_lt (c.eLt x h7))] at h8; exact ⟨h7, h8⟩
          obtain ⟨f', W', xs', i1, i2, i3, i4⟩ := out_connect (n := n)
            (h := { h.allocEdge a b l ps with base := { (h.allocEdge a b l ps).base with slot0 := p0 }, allEdges := ae })
            (c0.withSlot0 p0 ae.abs _ _)
            ⟨w0.inc, w0.out, (HMap.add_abs (P := (h.allocEdge a b l ps).base.slot0) w0.all σ.next).1 _ hadd⟩
            (by show (h.allocEdge a b l ps).base.eFrom σ.next ∈ _; rw [hfrom]; exact ha) hne h50 hx0 hq (fun _ _ => hnext) hconn
          · refine ⟨W', i1, fun x hx => (i2 x hx).imp_right (fun h => h.1), xs', f', i3, ?_⟩
            intro x
            rw [i4 x, h6 x]
            have e9 : HState.base { h.allocEdge a b l ps with
              base := { (h.allocEdge a b l ps).base with slot0 := p0 }, allEdges := ae } =
              { (h.allocEdge a b l ps).base with slot0 := p0 } := rfl
            rw [e9]
            simp only [hfrom, Spec.step, Spec.At, List.mem_append, List.mem_singleton]
            by_cases hx : x = σ.next
            · subst hx; simp [hne]
            · simp [hx, upd_other _ _ hx]
        | inc n =>
          have hx0 : ∀ x, x ∈ xs ↔ x ∈ σ.edges ∧ upd σ.dst σ.next b x = n := by
            intro x
            rw [h6 x]
            simp only [Spec.At]
            constructor
            · rintro ⟨h7, h8⟩; exact ⟨h7, by rw [upd_other _ _ (Nat.ne_of_lt (c.eLt x h7))]; exact h8⟩
            · rintro ⟨h7, h8⟩; rw [upd_other _ _ (Nat.ne_of_lt (c.eLt x h7))] at h8; exact ⟨h7, h8⟩
          obtain ⟨f', W', xs', i1, i2, i3, i4⟩ := inc_connect (n := n)
            (h := { h.allocEdge a b l ps with base := { (h.allocEdge a b l ps).base with slot0 := p0 }, allEdges := ae })
            (c0.withSlot0 p0 ae.abs _ _)
            ⟨w0.inc, w0.out, (HMap.add_abs (P := (h.allocEdge a b l ps).base.slot0) w0.all σ.next).1 _ hadd⟩
            (by show (h.allocEdge a b l ps).base.eTo σ.next ∈ _; rw [hto]; exact hb) hne h50 hx0 hq (fun _ _ => hnext) hconn
          · refine ⟨W', i1, fun x hx => (i2 x hx).imp_right (fun h => h.1), xs', f', i3, ?_⟩
            intro x
            rw [i4 x, h6 x]
            have e9 : HState.base { h.allocEdge a b l ps with
              base := { (h.allocEdge a b l ps).base with slot0 := p0 }, allEdges := ae } =
              { (h.allocEdge a b l ps).base with slot0 := p0 } := rfl
            rw [e9]
            simp only [hto, Spec.step, Spec.At, List.mem_append, List.mem_singleton]
            by_cases hx : x = σ.next
            · subst hx; simp [hne]
            · simp [hx, upd_other _ _ hx]

/-! ## SetLabel -/

theorem Core.relabel {s : State} {σ : Spec} {l : String} (c : Core s σ) (hnotin : e ∉ σ.edges) :
    Core { s with eLabel := upd s.eLabel e l } { σ with label := upd σ.label e l } := by
  have hne : ∀ x ∈ σ.edges, x ≠ e := by rintro x hx rfl; exact hnotin hx
  refine ⟨c.next, c.nNodup, c.eNodup, c.nLt, c.eLt, c.disj, c.labels, c.nprops, ?_, c.eprops, c.ends, ?_, ?_, c.count⟩
  · intro x hx
    have := c.eattr x hx
    refine ⟨this.1, this.2.1, ?_⟩
    simp only [upd_other _ _ (hne x hx)]; exact this.2.2
  · intro n hn
    obtain ⟨xs, h1, h2⟩ := c.out n hn
    refine ⟨xs, h1, h2.congr (fun _ _ => rfl) ?_⟩
    intro x hx
    exact upd_other _ _ (hne x (List.mem_filter.1 (h1.mem_iff.1 hx)).1)
  · intro n hn
    obtain ⟨xs, h1, h2⟩ := c.inc n hn
    refine ⟨xs, h1, h2.congr (fun _ _ => rfl) ?_⟩
    intro x hx
    exact upd_other _ _ (hne x (List.mem_filter.1 (h1.mem_iff.1 hx)).1)

theorem EdgesInv.setEdgeLabel {l : String} {R' : List Nat} (c : Core h.abs σ) (w : h.Wf) (he : e ∈ σ.edges)
    (hR : ∀ x ∈ R, x ∈ R') (hq : (∀ l, q l) ∨ R = []) (hi : EdgesInv m R q h σ it W)
    (hd : l ≠ σ.label e → σ.At m e → (m = .all ∧ e ∈ R') ∨ (m ≠ .all ∧ e ∉ R ∧ e ∉ W))
    (hs : h.setEdgeLabel e l = some h') :
    ∃ W', (∀ x ∈ W, x ∈ W') ∧ (∀ x ∈ W', x ∈ W ∨ (x = e ∧ m ≠ .all ∧ l ≠ σ.label e ∧ σ.At m e ∧ q l)) ∧
      EdgesInv m R' q h' (σ.step (.setEdgeLabel e l)) it W' := by
  have hlab : h.base.eLabel e = σ.label e := (c.eattr e he).2.2
  unfold HState.setEdgeLabel at hs
  rw [hlab] at hs
  obtain ⟨xs, f, h5, h6⟩ := hi
  split at hs
  · cases hs
    exact ⟨W, fun x hx => hx, fun x hx => .inl hx, xs, f, h5.mono hR, h6⟩
  · rename_i hl
    have cd := c.disconnect he
    obtain ⟨w1, e1⟩ := disconnect_abs w e
    rw [← e1] at cd
    have hnot : e ∉ (σ.dropEdge e).edges := by simp [Spec.dropEdge]
    have c1 := cd.relabel (l := l) hnot
    have hmem : ∀ x, x ∈ (σ.dropEdge e).edges ∨ x = e ↔ x ∈ σ.edges := by
      intro x
      simp only [Spec.dropEdge, List.mem_filter, decide_eq_true_eq]
      grind
    cases m with
    | all =>
      obtain ⟨p2, im, p1, om, -, -, rfl⟩ := connect_maps hs
      have hd' := (hd hl trivial).elim (fun h => h.2) (fun h => absurd rfl h.1)
      refine ⟨W, fun x hx => hx, fun x hx => .inl hx, xs, f, ?_, h6⟩
      refine (h5.mono hR).congr (fun _ _ => rfl) ?_
      intro x _ hx
      exact upd_other _ _ (fun hh => hx (hh ▸ hd'))
    | out n =>
      have hd' : σ.src e = n → e ∉ R ∧ e ∉ W := fun hh => (hd hl hh).elim (fun h => (by cases h.1)) (fun h => h.2)
      obtain ⟨xs', a1, a2, a3⟩ := out_disconnect c w he h5 h6 hd'
      have hex : e ∉ xs' := fun hh => hnot ((a2 e).1 hh).1
      obtain ⟨f', W', xs2, i1, i2, i3, i4⟩ := out_connect (n := n) (f := f) (W := W) (R := R) (q := q) (it := it)
        (h := { h.disconnect e with base := { (h.disconnect e).base with eLabel := upd (h.disconnect e).base.eLabel e l } })
        c1 ⟨w1.inc, w1.out, w1.all⟩ ((c.eattr e he).1 ▸ (c.ends e he).1) hnot
        (a1.congr (fun _ _ => rfl) (fun x hx _ => upd_other _ _ (fun hh => hex (hh ▸ hx)))) a2 hq
        (fun hh => a3 ((c.eattr e he).1 ▸ hh)) hs
      have hfrom : (h.disconnect e).base.eFrom e = σ.src e := (c.eattr e he).1
      refine ⟨W', i1, ?_, xs2, f', i3.mono hR, ?_⟩
      · intro x hx
        rcases i2 x hx with h7 | ⟨rfl, h7, h8⟩
        · exact .inl h7
        · refine .inr ⟨rfl, by simp, hl, hfrom.symm.trans h7, ?_⟩
          simpa only [upd_same] using h8
      · intro x
        rw [i4 x, a2 x]
        show _ ↔ x ∈ σ.edges ∧ σ.src x = n
        simp only [hfrom]
        rw [← hmem x]
        by_cases hxe : x = e
        · subst hxe; simp [hnot]
        · simp [hxe]
    | inc n =>
      have hd' : σ.dst e = n → e ∉ R ∧ e ∉ W := fun hh => (hd hl hh).elim (fun h => (by cases h.1)) (fun h => h.2)
      obtain ⟨xs', a1, a2, a3⟩ := inc_disconnect c w he h5 h6 hd'
      have hex : e ∉ xs' := fun hh => hnot ((a2 e).1 hh).1
      obtain ⟨f', W', xs2, i1, i2, i3, i4⟩ := inc_connect (n := n) (f := f) (W := W) (R := R) (q := q) (it := it)
        (h := { h.disconnect e with base := { (h.disconnect e).base with eLabel := upd (h.disconnect e).base.eLabel e l } })
        c1 ⟨w1.inc, w1.out, w1.all⟩ ((c.eattr e he).2.1 ▸ (c.ends e he).2) hnot
        (a1.congr (fun _ _ => rfl) (fun x hx _ => upd_other _ _ (fun hh => hex (hh ▸ hx)))) a2 hq
        (fun hh => a3 ((c.eattr e he).2.1 ▸ hh)) hs
      have hto : (h.disconnect e).base.eTo e = σ.dst e := (c.eattr e he).2.1
      refine ⟨W', i1, ?_, xs2, f', i3.mono hR, ?_⟩
      · intro x hx
        rcases i2 x hx with h7 | ⟨rfl, h7, h8⟩
        · exact .inl h7
        · refine .inr ⟨rfl, by simp, hl, hto.symm.trans h7, ?_⟩
          simpa only [upd_same] using h8
      · intro x
        rw [i4 x, a2 x]
        show _ ↔ x ∈ σ.edges ∧ σ.dst x = n
        simp only [hto]
        rw [← hmem x]
        by_cases hxe : x = e
        · subst hxe; simp [hnot]
        · simp [hxe]

end LPG
