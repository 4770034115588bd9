import Verif.Proofs.Core

/-! `detachNode` as a sequence of single edge removals, for any further invariant. -/
namespace LPG
open State

theorem Core.clearIncoming {s : State} {σ : Spec} {n : Nat} (c1 : Core s σ)
    (h : ∀ e ∈ σ.edges, σ.dst e ≠ n) : Core { s with incoming := upd s.incoming n EdgeMap.empty } σ := by
  refine ⟨c1.next, c1.nNodup, c1.eNodup, c1.nLt, c1.eLt, c1.disj, c1.labels, c1.nprops, c1.eattr,
    c1.eprops, c1.ends, c1.out, ?_, c1.count⟩
  intro m hm
  by_cases hmn : m = n
  · subst hmn
    refine ⟨[], ?_, ?_⟩
    · apply List.Perm.of_eq
      symm; rw [List.filter_eq_nil_iff]
      intro x hx; simp [h x hx]
    · simp only [upd_same]; exact EMRep.empty _ _
  · simp only [upd_other _ _ hmn]; exact c1.inc m hm

theorem detachEdges_ind {Q : State → Spec → Prop} {good : Nat → Prop}
    (hstep : ∀ s s' σ e, Core s σ → Q s σ → e ∈ σ.edges → good e → s.detachEdge e = some s' → Q s' (σ.dropEdge e))
    {es : List Nat} : ∀ {s s' : State} {σ : Spec}, Core s σ → Q s σ → es.Nodup →
    (∀ e ∈ es, e ∈ σ.edges ∧ good e) → s.detachEdges es = some s' →
    Q s' { σ with edges := σ.edges.filter (fun e => e ∉ es) } := by
  induction es with
  | nil =>
    intro s s' σ _ hq _ _ hs
    simp [State.detachEdges] at hs; subst hs
    have : σ.edges.filter (fun e => e ∉ ([] : List Nat)) = σ.edges := by simp
    rw [this]; exact hq
  | cons e es ih =>
    intro s s' σ h hq hn hm hs
    rw [State.detachEdges] at hs
    split at hs
    · cases hs
    · rename_i s1 h1
      have c1 := h.detachEdge (hm e (by simp)).1 h1
      have q1 := hstep _ _ _ _ h hq (hm e (by simp)).1 (hm e (by simp)).2 h1
      have hn' := List.nodup_cons.1 hn
      have := ih c1 q1 hn'.2 (by
        intro x hx
        simp only [Spec.dropEdge, List.mem_filter]
        refine ⟨⟨(hm x (by simp [hx])).1, ?_⟩, (hm x (by simp [hx])).2⟩
        simp; rintro rfl; exact hn'.1 hx) hs
      have e1 : ({ σ.dropEdge e with edges := (σ.dropEdge e).edges.filter (fun x => x ∉ es) } : Spec) =
          { σ with edges := σ.edges.filter (fun x => x ∉ e :: es) } := by
        simp only [Spec.dropEdge, List.filter_filter]
        congr 1
        apply List.filter_congr
        intro x _
        simp only [List.mem_cons]
        by_cases hx : x = e <;> by_cases hx2 : x ∈ es <;> simp [hx, hx2]
      rw [e1] at this
      exact this

theorem detachEdges_total {Q : State → Spec → Prop} {good : Nat → Prop}
    (hstep : ∀ s σ e, Core s σ → Q s σ → e ∈ σ.edges → good e → ∃ s', s.detachEdge e = some s' ∧ Q s' (σ.dropEdge e))
    {es : List Nat} : ∀ {s : State} {σ : Spec}, Core s σ → Q s σ → es.Nodup →
    (∀ e ∈ es, e ∈ σ.edges ∧ good e) → ∃ s', s.detachEdges es = some s' := by
  induction es with
  | nil => intro s σ _ _ _ _; exact ⟨s, rfl⟩
  | cons e es ih =>
    intro s σ h hq hn hm
    obtain ⟨s1, h1, q1⟩ := hstep _ _ _ h hq (hm e (by simp)).1 (hm e (by simp)).2
    have hn' := List.nodup_cons.1 hn
    have c1 := h.detachEdge (hm e (by simp)).1 h1
    obtain ⟨s2, h2⟩ := ih c1 q1 hn'.2 (by
        intro x hx
        simp only [Spec.dropEdge, List.mem_filter]
        refine ⟨⟨(hm x (by simp [hx])).1, ?_⟩, (hm x (by simp [hx])).2⟩
        simp; rintro rfl; exact hn'.1 hx)
    exact ⟨s2, by rw [State.detachEdges, h1]; exact h2⟩

/-- the body of `detachNode` once the two slices are known -/
theorem detachNode_decomp {s : State} {σ : Spec} {n : Nat} (h : Core s σ) (hn : n ∈ σ.nodes) :
    ∃ ys, ys.Nodup ∧ (∀ e, e ∈ ys ↔ e ∈ σ.edges ∧ σ.dst e = n) ∧
      (s.detachEdges ys = none → s.detachNode n = none) ∧
      ∀ s1, s.detachEdges ys = some s1 →
        Core { s1 with incoming := upd s1.incoming n EdgeMap.empty }
          { σ with edges := σ.edges.filter (fun e => σ.dst e ≠ n) } ∧
        σ.edges.filter (fun e => e ∉ ys) = σ.edges.filter (fun e => σ.dst e ≠ n) ∧
        ∃ zs, zs.Nodup ∧ (∀ e, e ∈ zs ↔ (e ∈ σ.edges ∧ σ.dst e ≠ n) ∧ σ.src e = n) ∧
          (σ.edges.filter (fun e => σ.dst e ≠ n)).filter (fun e => e ∉ zs) =
            σ.edges.filter (fun e => σ.src e ≠ n ∧ σ.dst e ≠ n) ∧
          s.detachNode n =
            match State.detachEdges { s1 with incoming := upd s1.incoming n EdgeMap.empty } zs with
            | none => none
            | some s2 => some { s2 with outgoing := upd s2.outgoing n EdgeMap.empty } := by
  obtain ⟨xi, hxi, hri⟩ := h.inc n hn
  obtain ⟨ys, hy1, hy2⟩ := hri.enum (h.fuel hxi)
  have hyn : ys.Nodup := hy2.nodup_iff.2 hri.nodup
  have hmem : ∀ e, e ∈ ys ↔ e ∈ σ.edges ∧ σ.dst e = n := by
    intro e; rw [hy2.mem_iff, hxi.mem_iff]; simp
  refine ⟨ys, hyn, hmem, ?_, ?_⟩
  · intro hnone
    unfold State.detachNode
    rw [hy1]; simp only [hnone]
  · intro s1 h1
    have c1 := h.detachEdges hyn (fun e he => ((hmem e).1 he).1) h1
    have e1 : σ.edges.filter (fun e => e ∉ ys) = σ.edges.filter (fun e => σ.dst e ≠ n) := by
      apply List.filter_congr
      intro x hx
      simp [hmem, hx]
    rw [e1] at c1
    have c1' := c1.clearIncoming (n := n) (fun e he => by have := (List.mem_filter.1 he).2; simpa using this)
    refine ⟨c1', e1, ?_⟩
    obtain ⟨xo, hxo, hro⟩ := c1'.out n hn
    obtain ⟨zs, hz1, hz2⟩ := hro.enum (c1'.fuel hxo)
    have hmem2 : ∀ e, e ∈ zs ↔ (e ∈ σ.edges ∧ σ.dst e ≠ n) ∧ σ.src e = n := by
      intro e; rw [hz2.mem_iff, hxo.mem_iff]; simp; grind
    refine ⟨zs, hz2.nodup_iff.2 hro.nodup, hmem2, ?_, ?_⟩
    · rw [List.filter_filter]
      apply List.filter_congr
      intro x hx
      simp only [hmem2, hx]
      by_cases a : σ.dst x = n <;> by_cases b : σ.src x = n <;> simp [a, b]
    · have hout : (s1.outgoing n).enum s1.slot1 s1.idBase = some zs := hz1
      unfold State.detachNode
      rw [hy1]
      simp only [h1, hout]
      split <;> simp_all

theorem detachNode_ind {Q : State → Spec → Prop} {good : Nat → Prop}
    (hstep : ∀ s s' σ e, Core s σ → Q s σ → e ∈ σ.edges → good e → s.detachEdge e = some s' → Q s' (σ.dropEdge e))
    (hin : ∀ (s : State) (σ : Spec) im om, Q s σ → Q { s with incoming := im, outgoing := om } σ)
    {s s' : State} {σ : Spec} {n : Nat} (h : Core s σ) (hq : Q s σ) (hn : n ∈ σ.nodes)
    (hg : ∀ e ∈ σ.edges, σ.src e = n ∨ σ.dst e = n → good e)
    (hs : s.detachNode n = some s') : Q s' (σ.detach n) := by
  obtain ⟨ys, hyn, hmem, hnone, hsome⟩ := detachNode_decomp h hn
  cases h1 : s.detachEdges ys with
  | none => rw [hnone h1] at hs; cases hs
  | some s1 =>
    obtain ⟨c1, e1, zs, hzn, hmem2, e2, he⟩ := hsome s1 h1
    rw [he] at hs
    have q1 := detachEdges_ind hstep h hq hyn
      (fun e hh => ⟨((hmem e).1 hh).1, hg e ((hmem e).1 hh).1 (Or.inr ((hmem e).1 hh).2)⟩) h1
    rw [e1] at q1
    have q1' := hin _ _ (upd s1.incoming n EdgeMap.empty) s1.outgoing q1
    split at hs
    · cases hs
    · rename_i s2 h2
      have q2 := detachEdges_ind hstep c1 q1' hzn (fun e hh => by
        have hm := (hmem2 e).1 hh
        exact ⟨by simp [hm.1.1, hm.1.2], hg e hm.1.1 (Or.inl hm.2)⟩) h2
      simp only at q2
      rw [e2] at q2
      cases hs
      exact hin _ _ s2.incoming (upd s2.outgoing n EdgeMap.empty) q2

theorem detachNode_total {Q : State → Spec → Prop} {good : Nat → Prop}
    (hstep : ∀ s σ e, Core s σ → Q s σ → e ∈ σ.edges → good e → ∃ s', s.detachEdge e = some s' ∧ Q s' (σ.dropEdge e))
    (hin : ∀ (s : State) (σ : Spec) im om, Q s σ → Q { s with incoming := im, outgoing := om } σ)
    {s : State} {σ : Spec} {n : Nat} (h : Core s σ) (hq : Q s σ) (hn : n ∈ σ.nodes)
    (hg : ∀ e ∈ σ.edges, σ.src e = n ∨ σ.dst e = n → good e) : ∃ s', s.detachNode n = some s' := by
  have hstep' : ∀ s s' σ e, Core s σ → Q s σ → e ∈ σ.edges → good e → s.detachEdge e = some s' →
      Q s' (σ.dropEdge e) := by
    intro s s' σ e a b c d he
    obtain ⟨s2, h2, q⟩ := hstep s σ e a b c d
    rw [he] at h2; cases h2; exact q
  obtain ⟨ys, hyn, hmem, hnone, hsome⟩ := detachNode_decomp h hn
  have hg1 := (fun e (hh : e ∈ ys) =>
    (⟨((hmem e).1 hh).1, hg e ((hmem e).1 hh).1 (Or.inr ((hmem e).1 hh).2)⟩ : e ∈ σ.edges ∧ good e))
  obtain ⟨s1, h1⟩ := detachEdges_total hstep h hq hyn hg1
  obtain ⟨c1, e1, zs, hzn, hmem2, e2, he⟩ := hsome s1 h1
  have q1 := detachEdges_ind hstep' h hq hyn hg1 h1
  rw [e1] at q1
  have q1' := hin _ _ (upd s1.incoming n EdgeMap.empty) s1.outgoing q1
  obtain ⟨s2, h2⟩ := detachEdges_total hstep c1 q1' hzn (fun e hh => by
        have hm := (hmem2 e).1 hh
        exact ⟨by simp [hm.1.1, hm.1.2], hg e hm.1.1 (Or.inl hm.2)⟩)
  rw [he, h2]
  exact ⟨_, rfl⟩

end LPG
