import Verif.Props.C35C36
import Verif.Props.Listed
/-!
# C35 and C36 after every history

What `CheckIsomorphism` decides, also for graphs whose enumeration of nodes or number of edges is wrong.
-/
namespace LPG
open Iso

/-- Like `WeaklyIsomorphic`, for the nodes that are enumerated: these are mapped to enumerated nodes, and the edges that
leave them must lead to enumerated nodes. -/
def ShownIsomorphic (σ₁ σ₂ : Spec) (v₁ v₂ : List Nat) (nodeEq edgeEq : Nat → Nat → Bool) : Prop :=
  σ₁.nodes.length = σ₂.nodes.length ∧
  ∃ f : Nat → Nat, ∀ n ∈ v₁, f n ∈ v₂ ∧ nodeEq n (f n) = true ∧
    (σ₁.outEdges n).length = (σ₂.outEdges (f n)).length ∧
    ∀ e₁ ∈ σ₁.outEdges n, σ₁.dst e₁ ∈ v₁ ∧
      ∃ e₂ ∈ σ₂.outEdges (f n), σ₂.dst e₂ = f (σ₁.dst e₁) ∧ edgeEq e₁ e₂ = true

theorem outgoing_run {ops : List Op} {s : State} (hv : Spec.ValidHistory ops) (hs : run ops = some s) (n : Nat) :
    ∃ o, s.nodeEdges n .outgoing = some o ∧ o.Perm ((Spec.run ops).outEdges n) := by
  have c := Core.run hv hs
  by_cases hn : n ∈ (Spec.run ops).nodes
  · obtain ⟨o, i, x, _, _, y, _⟩ := C05 ops hv s hs n hn
    exact ⟨o, x, y⟩
  · have g : Gone s (Spec.run ops) := Gone.init.runFrom Core.init hv hs
    refine ⟨[], by simp [State.nodeEdges, (g n hn).2, EdgeMap.enum, EdgeMap.empty], List.Perm.of_eq ?_⟩
    symm
    rw [Spec.outEdges, List.filter_eq_nil_iff]
    intro e he h
    exact hn (of_decide_eq_true h ▸ (c.ends e he).1)

/-- After all histories `CheckIsomorphism` ends without panic; unless the context is cancelled it decides whether
`NumEdges` is the same and the graphs, as far as they are enumerated, are weakly isomorphic. -/
theorem C36_listing (ops₁ ops₂ : List Op) (v₁ : Spec.ValidHistory ops₁) (v₂ : Spec.ValidHistory ops₂) (s₁ s₂ : State)
    (hs₁ : run ops₁ = some s₁) (hs₂ : run ops₂ = some s₂) (nodeEq edgeEq : Nat → Nat → Bool) (cancelled : Nat → Bool) :
    ∃ r, checkIsomorphism cancelled s₁ s₂ nodeEq edgeEq = some r ∧
      (r = .ok true ∧ (s₁.numEdges = s₂.numEdges ∧ ShownIsomorphic (Spec.run ops₁) (Spec.run ops₂)
          (listingAfter ops₁).nodes (listingAfter ops₂).nodes nodeEq edgeEq) ∨
       r = .ok false ∧ ¬ (s₁.numEdges = s₂.numEdges ∧ ShownIsomorphic (Spec.run ops₁) (Spec.run ops₂)
          (listingAfter ops₁).nodes (listingAfter ops₂).nodes nodeEq edgeEq) ∨
       r = .error () ∧ ∃ k, cancelled k = true) := by
  have c₁ := Core.run v₁ hs₁
  have c₂ := Core.run v₂ hs₂
  have n₁ := C02 ops₁ v₁ s₁ hs₁
  have n₂ := C02 ops₂ v₂ s₂ hs₂
  have g₁ := C01_listing ops₁ v₁ s₁ hs₁
  have g₂ := C01_listing ops₂ v₂ s₂ hs₂
  have hnd₁ : (listingAfter ops₁).nodes.Nodup := (C01_shown ops₁ v₁ s₁ hs₁).2.2.imp (fun h => Nat.ne_of_lt h)
  unfold checkIsomorphism
  split
  · rename_i hne
    refine ⟨_, rfl, Or.inr (Or.inl ⟨rfl, fun ⟨y, x, _⟩ => ?_⟩)⟩
    rw [n₁, n₂] at hne
    omega
  · rename_i hcnt
    simp only [g₁, g₂]
    cases hf : fill cancelled nodeEq (listingAfter ops₂).nodes (listingAfter ops₁).nodes 0 with
    | error r =>
      simp only
      rcases fill_error hf with ⟨rfl, n, hn, hno⟩ | ⟨rfl, hc⟩
      · refine ⟨_, rfl, Or.inr (Or.inl ⟨rfl, fun ⟨_, _, f, hh⟩ => ?_⟩)⟩
        obtain ⟨x, y, _⟩ := hh n hn
        rw [hno _ x] at y; cases y
      · exact ⟨_, rfl, Or.inr (Or.inr ⟨rfl, hc⟩)⟩
    | ok cs =>
      simp only
      obtain ⟨rfl, hne⟩ := fill_ok hf
      -- out edges
      have hto : ∀ {ops : List Op} {s : State}, Core s (Spec.run ops) → ∀ n, ∀ e ∈ (Spec.run ops).outEdges n,
          s.eTo e = (Spec.run ops).dst e :=
        fun c n e he => (c.eattr e (List.mem_filter.1 he).1).2.1
      -- a mapping is accepted iff it is a weak isomorphism
      have acc : ∀ m, Picks (listingAfter ops₂).nodes nodeEq (listingAfter ops₁).nodes m →
          ∃ b, isIsomorphism s₁ s₂ edgeEq m m = some b ∧ (b = true ↔ ∀ p ∈ m,
            ((Spec.run ops₁).outEdges p.1).length = ((Spec.run ops₂).outEdges p.2).length ∧
            ∀ x ∈ (Spec.run ops₁).outEdges p.1, ∃ y ∈ (Spec.run ops₂).outEdges p.2,
              m.get ((Spec.run ops₁).dst x) = some ((Spec.run ops₂).dst y) ∧ edgeEq x y = true) := by
        intro m ⟨m1, m2⟩
        obtain ⟨b, hb, hb'⟩ := isIso_spec (s1 := s₁) (s2 := s₂) (edgeEq := edgeEq) (m := m) (rest := m) (fun p hp => by
          obtain ⟨o1, x1, _⟩ := outgoing_run v₁ hs₁ p.1
          obtain ⟨o2, x2, _⟩ := outgoing_run v₂ hs₂ p.2
          exact ⟨⟨o1, x1⟩, o2, x2⟩)
        refine ⟨b, hb, hb'.trans ⟨fun h p hp => ?_, fun h p hp o1 o2 q1 q2 => ?_⟩⟩ <;>
          obtain ⟨o1', x1, y1⟩ := outgoing_run v₁ hs₁ p.1 <;>
          obtain ⟨o2', x2, y2⟩ := outgoing_run v₂ hs₂ p.2
        · obtain ⟨l, r⟩ := h p hp o1' o2' x1 x2
          refine ⟨by rw [← y1.length_eq, ← y2.length_eq, l], fun x hx => ?_⟩
          obtain ⟨y, hy, z1, z2⟩ := r x (y1.mem_iff.2 hx)
          rw [hto c₁ _ x hx, hto c₂ _ y (y2.mem_iff.1 hy)] at z1
          exact ⟨y, y2.mem_iff.1 hy, z1, z2⟩
        · rw [q1] at x1; rw [q2] at x2; cases x1; cases x2
          obtain ⟨l, r⟩ := h p hp
          refine ⟨by rw [y1.length_eq, y2.length_eq, l], fun x hx => ?_⟩
          obtain ⟨y, hy, z1, z2⟩ := r x (y1.mem_iff.1 hx)
          rw [← hto c₁ _ x (y1.mem_iff.1 hx), ← hto c₂ _ y hy] at z1
          exact ⟨y, y2.mem_iff.2 hy, z1, z2⟩
      -- the answer for each choice
      have bs := fun is hv => build_some (ns2 := (listingAfter ops₂).nodes) (nodeEq := nodeEq) (m0 := []) (is := is) hnd₁
        (by simp) hv
      have hR : ∃ R : List Nat → Bool, ∀ is,
          Valid ((listingAfter ops₁).nodes.map (fun n => (listingAfter ops₂).nodes.filter (fun n2 => nodeEq n n2))) is →
          ∃ m, build [] (listingAfter ops₁).nodes
            ((listingAfter ops₁).nodes.map (fun n => (listingAfter ops₂).nodes.filter (fun n2 => nodeEq n n2))) is = some m ∧
            isIsomorphism s₁ s₂ edgeEq m m = some (R is) ∧
            Picks (listingAfter ops₂).nodes nodeEq (listingAfter ops₁).nodes m := by
        refine ⟨fun is => ((build [] (listingAfter ops₁).nodes
            ((listingAfter ops₁).nodes.map (fun n => (listingAfter ops₂).nodes.filter (fun n2 => nodeEq n n2))) is).bind
            (fun m => isIsomorphism s₁ s₂ edgeEq m m)).getD false, fun is hv => ?_⟩
        obtain ⟨m, x, y⟩ := bs is hv
        rw [List.nil_append] at x
        obtain ⟨b, z, _⟩ := acc m y
        exact ⟨m, x, by simp only [x, Option.bind_some, z, Option.getD_some], y⟩
      obtain ⟨R, hR⟩ := hR
      obtain ⟨r, hr, hcase⟩ := search_spec (cancelled := cancelled)
        (fun is hv => by obtain ⟨m, x, y, _⟩ := hR is hv; exact ⟨m, x, y⟩) _
        (List.replicate (listingAfter ops₁).nodes.length 0) (listingAfter ops₁).nodes.length
        (valid_zero (by simp) hne) (Nat.le_add_left _ _)
      refine ⟨r, hr, ?_⟩
      rcases hcase with ⟨rfl, js, hv, hjs⟩ | ⟨rfl, hno⟩ | h
      · refine Or.inl ⟨rfl, by omega, by omega, ?_⟩
        obtain ⟨m, x, y, z1, z2⟩ := hR js hv
        obtain ⟨b, w, w'⟩ := acc m ⟨z1, z2⟩
        rw [w, hjs] at y
        simp only [Option.some.injEq] at y
        have hm := w'.1 y
        have hnd : (m.map Prod.fst).Nodup := z1 ▸ hnd₁
        refine ⟨fun n => (m.get n).getD 0, fun n hn => ?_⟩
        obtain ⟨p, hp, hpn⟩ := List.mem_map.1 (z1 ▸ hn : n ∈ m.map Prod.fst)
        have hg := get_of_mem hnd (a := p.1) (b := p.2) hp
        rw [hpn] at hg
        simp only [hg, Option.getD_some]
        obtain ⟨q1, q2⟩ := z2 p hp
        obtain ⟨q3, q4⟩ := hm p hp
        rw [hpn] at q2 q3 q4
        refine ⟨q1, q2, q3, fun x hx => ?_⟩
        obtain ⟨y, hy, k1, k2⟩ := q4 x hx
        have hd : (Spec.run ops₁).dst x ∈ m.map Prod.fst :=
          List.mem_map.2 ⟨_, AMap.mem_of_get k1, rfl⟩
        exact ⟨z1 ▸ hd, y, hy, by rw [k1]; rfl, k2⟩
      · refine Or.inr (Or.inl ⟨rfl, fun ⟨_, _, f, hh⟩ => ?_⟩)
        obtain ⟨is, hv, hb⟩ := build_pick (ns2 := (listingAfter ops₂).nodes) (nodeEq := nodeEq) (f := f) (m0 := [])
          hnd₁ (by simp) (fun n hn => ⟨(hh n hn).1, (hh n hn).2.1⟩)
        have hfalse := hno is hv (by rw [val_zero]; exact Nat.zero_le _)
        obtain ⟨m, x, y, z⟩ := hR is hv
        rw [hb] at x
        simp only [List.nil_append, Option.some.injEq] at x
        subst x
        obtain ⟨b, w, w'⟩ := acc _ z
        rw [w, hfalse] at y
        simp only [Option.some.injEq] at y
        have : b = true := w'.2 (fun p hp => by
          obtain ⟨n, hn, rfl⟩ := List.mem_map.1 hp
          obtain ⟨_, _, q3, q4⟩ := hh n hn
          refine ⟨q3, fun x hx => ?_⟩
          obtain ⟨hd, y, hy, k1, k2⟩ := q4 x hx
          refine ⟨y, hy, ?_, k2⟩
          rw [get_graph, if_pos hd, k1])
        rw [this] at y; cases y
      · exact Or.inr (Or.inr h)

/-- A graph is found isomorphic to itself, with equivalences that hold of every node and edge and itself, exactly if
every edge that leaves an enumerated node leads to an enumerated node. -/
theorem C35_self (ops : List Op) (hv : Spec.ValidHistory ops) (s : State) (hs : run ops = some s)
    (nodeEq edgeEq : Nat → Nat → Bool) (hn : ∀ n, nodeEq n n = true) (he : ∀ e, edgeEq e e = true) :
    checkIsomorphism (fun _ => false) s s nodeEq edgeEq = some (.ok true) ↔
      ∀ e ∈ (Spec.run ops).edges, (Spec.run ops).src e ∈ (listingAfter ops).nodes →
        (Spec.run ops).dst e ∈ (listingAfter ops).nodes := by
  obtain ⟨r, hr, hc⟩ := C36_listing ops ops hv hv s s hs hs nodeEq edgeEq (fun _ => false)
  rw [hr]
  constructor
  · intro h e h1 h2
    cases h
    rcases hc with ⟨_, _, _, f, hf⟩ | ⟨h, _⟩ | ⟨h, _⟩
    · obtain ⟨_, _, _, h3⟩ := hf _ h2
      exact (h3 e (List.mem_filter.2 ⟨h1, by simp⟩)).1
    · cases h
    · cases h
  · intro h
    rcases hc with ⟨rfl, _⟩ | ⟨rfl, hno⟩ | ⟨_, k, hk⟩
    · rfl
    · refine absurd ⟨rfl, rfl, fun n => n, fun n hm => ⟨hm, hn n, rfl, fun e h1 => ?_⟩⟩ hno
      obtain ⟨h2, h3⟩ := List.mem_filter.1 h1
      rw [decide_eq_true_eq] at h3
      exact ⟨h e h2 (h3 ▸ hm), e, h1, rfl, he e⟩
    · cases hk

/-- the removed node 3 is enumerated; the edge from 4 leads to the lost node 7 -/
example : Spec.ValidHistory tangledOps ∧ (listingAfter tangledOps).nodes = [3, 4, 5] ∧
    (Spec.run tangledOps).edges.map (fun e => ((Spec.run tangledOps).src e, (Spec.run tangledOps).dst e)) = [(4, 7)] ∧
    ¬ Countable tangledOps := by unfold Countable; decide +kernel

end LPG
