import Verif.Proofs.Iso
import Verif.Props.C05C09
import Verif.Props.C07Exact
import Mathlib.Data.List.Nodup
/-!
# C35 and C36: CheckIsomorphism
-/
namespace LPG
open Iso

/-- The histories after which `GetNodes` and `NumEdges` are right (see C01 and C04). -/
def Countable (ops : List Op) : Prop := Spec.ValidHistory ops ∧ ListOk ops ∧ FiledOk ops

/-- `CheckIsomorphism` ends without panic; unless the context is cancelled it decides whether the graphs are weakly
isomorphic. -/
theorem C36_decides (ops₁ ops₂ : List Op) (h₁ : Countable ops₁) (h₂ : Countable ops₂) (s₁ s₂ : State)
    (hs₁ : run ops₁ = some s₁) (hs₂ : run ops₂ = some s₂) (nodeEq edgeEq : Nat → Nat → Bool) (cancelled : Nat → Bool) :
    ∃ r, checkIsomorphism cancelled s₁ s₂ nodeEq edgeEq = some r ∧
      (r = .ok true ∧ WeaklyIsomorphic (Spec.run ops₁) (Spec.run ops₂) nodeEq edgeEq ∨
       r = .ok false ∧ ¬ WeaklyIsomorphic (Spec.run ops₁) (Spec.run ops₂) nodeEq edgeEq ∨
       r = .error () ∧ ∃ k, cancelled k = true) := by
  obtain ⟨v₁, a₁, b₁⟩ := h₁
  obtain ⟨v₂, a₂, b₂⟩ := h₂
  have c₁ := Core.run v₁ hs₁
  have c₂ := Core.run v₂ hs₂
  have n₁ := C02 ops₁ v₁ s₁ hs₁
  have n₂ := C02 ops₂ v₂ s₂ hs₂
  obtain ⟨e₁, _⟩ := C04_filed_partial ops₁ v₁ b₁ s₁ hs₁
  obtain ⟨e₂, _⟩ := C04_filed_partial ops₂ v₂ b₂ s₂ hs₂
  have g₁ := C01_safe_partial ops₁ v₁ a₁ s₁ hs₁
  have g₂ := C01_safe_partial ops₂ v₂ a₂ s₂ hs₂
  unfold checkIsomorphism
  split
  · rename_i hne
    refine ⟨_, rfl, Or.inr (Or.inl ⟨rfl, fun ⟨x, y, _⟩ => ?_⟩)⟩
    omega
  · rename_i hcnt
    simp only [g₁, g₂]
    cases hf : fill cancelled nodeEq (Spec.run ops₂).nodes (Spec.run ops₁).nodes 0 with
    | error r =>
      simp only
      rcases fill_error hf with ⟨rfl, n, hn, hno⟩ | ⟨rfl, hc⟩
      · refine ⟨_, rfl, Or.inr (Or.inl ⟨rfl, fun ⟨_, _, f, hh⟩ => ?_⟩)⟩
        obtain ⟨x, y, _⟩ := hh n hn
        rw [hno _ x] at y; cases y
      · exact ⟨_, rfl, Or.inr (Or.inr ⟨rfl, hc⟩)⟩
    | ok cs =>
      simp only
      obtain ⟨rfl, hne⟩ := fill_ok hf
      -- out edges
      have out : ∀ {ops : List Op} {s : State}, Spec.ValidHistory ops → run ops = some s → ∀ n ∈ (Spec.run ops).nodes,
          ∃ o, s.nodeEdges n .outgoing = some o ∧ o.Perm ((Spec.run ops).outEdges n) := by
        intro ops s hv hs n hn
        obtain ⟨o, i, x, _, _, y, _⟩ := C05 ops hv s hs n hn
        exact ⟨o, x, y⟩
      have hto : ∀ {ops : List Op} {s : State}, Core s (Spec.run ops) → ∀ n, ∀ e ∈ (Spec.run ops).outEdges n,
          s.eTo e = (Spec.run ops).dst e ∧ (Spec.run ops).dst e ∈ (Spec.run ops).nodes := by
        intro ops s c n e he
        have he' := (List.mem_filter.1 he).1
        exact ⟨(c.eattr e he').2.1, (c.ends e he').2⟩
      -- a mapping is accepted iff it is a weak isomorphism
      have acc : ∀ m, Picks (Spec.run ops₂).nodes nodeEq (Spec.run ops₁).nodes m →
          ∃ b, isIsomorphism s₁ s₂ edgeEq m m = some b ∧ (b = true ↔ ∀ p ∈ m,
            ((Spec.run ops₁).outEdges p.1).length = ((Spec.run ops₂).outEdges p.2).length ∧
            ∀ x ∈ (Spec.run ops₁).outEdges p.1, ∃ y ∈ (Spec.run ops₂).outEdges p.2,
              m.get ((Spec.run ops₁).dst x) = some ((Spec.run ops₂).dst y) ∧ edgeEq x y = true) := by
        intro m ⟨m1, m2⟩
        have hp1 : ∀ p ∈ m, p.1 ∈ (Spec.run ops₁).nodes := fun p hp => m1 ▸ List.mem_map.2 ⟨p, hp, rfl⟩
        obtain ⟨b, hb, hb'⟩ := isIso_spec (s1 := s₁) (s2 := s₂) (edgeEq := edgeEq) (m := m) (rest := m) (fun p hp => by
          obtain ⟨o1, x1, _⟩ := out v₁ hs₁ p.1 (hp1 p hp)
          obtain ⟨o2, x2, _⟩ := out v₂ hs₂ p.2 (m2 p hp).1
          exact ⟨⟨o1, x1⟩, o2, x2⟩)
        refine ⟨b, hb, hb'.trans ⟨fun h p hp => ?_, fun h p hp o1 o2 q1 q2 => ?_⟩⟩ <;>
          obtain ⟨o1', x1, y1⟩ := out v₁ hs₁ p.1 (hp1 p hp) <;>
          obtain ⟨o2', x2, y2⟩ := out v₂ hs₂ p.2 (m2 p hp).1
        · obtain ⟨l, r⟩ := h p hp o1' o2' x1 x2
          refine ⟨by rw [← y1.length_eq, ← y2.length_eq, l], fun x hx => ?_⟩
          obtain ⟨y, hy, z1, z2⟩ := r x (y1.mem_iff.2 hx)
          rw [(hto c₁ _ x hx).1, (hto c₂ _ y (y2.mem_iff.1 hy)).1] at z1
          exact ⟨y, y2.mem_iff.1 hy, z1, z2⟩
        · rw [q1] at x1; rw [q2] at x2; cases x1; cases x2
          obtain ⟨l, r⟩ := h p hp
          refine ⟨by rw [y1.length_eq, y2.length_eq, l], fun x hx => ?_⟩
          obtain ⟨y, hy, z1, z2⟩ := r x (y1.mem_iff.1 hx)
          rw [← (hto c₁ _ x (y1.mem_iff.1 hx)).1, ← (hto c₂ _ y hy).1] at z1
          exact ⟨y, y2.mem_iff.2 hy, z1, z2⟩
      -- the answer for each choice
      have bs := fun is hv => build_some (ns2 := (Spec.run ops₂).nodes) (nodeEq := nodeEq) (m0 := []) (is := is) c₁.nNodup
        (by simp) hv
      have hR : ∃ R : List Nat → Bool, ∀ is,
          Valid ((Spec.run ops₁).nodes.map (fun n => (Spec.run ops₂).nodes.filter (fun n2 => nodeEq n n2))) is →
          ∃ m, build [] (Spec.run ops₁).nodes
            ((Spec.run ops₁).nodes.map (fun n => (Spec.run ops₂).nodes.filter (fun n2 => nodeEq n n2))) is = some m ∧
            isIsomorphism s₁ s₂ edgeEq m m = some (R is) ∧
            Picks (Spec.run ops₂).nodes nodeEq (Spec.run ops₁).nodes m := by
        refine ⟨fun is => ((build [] (Spec.run ops₁).nodes
            ((Spec.run ops₁).nodes.map (fun n => (Spec.run ops₂).nodes.filter (fun n2 => nodeEq n n2))) is).bind
            (fun m => isIsomorphism s₁ s₂ edgeEq m m)).getD false, fun is hv => ?_⟩
        obtain ⟨m, x, y⟩ := bs is hv
        rw [List.nil_append] at x
        obtain ⟨b, z, _⟩ := acc m y
        exact ⟨m, x, by simp only [x, Option.bind_some, z, Option.getD_some], y⟩
      obtain ⟨R, hR⟩ := hR
      obtain ⟨r, hr, hcase⟩ := search_spec (cancelled := cancelled)
        (fun is hv => by obtain ⟨m, x, y, _⟩ := hR is hv; exact ⟨m, x, y⟩) _
        (List.replicate (Spec.run ops₁).nodes.length 0) (Spec.run ops₁).nodes.length
        (valid_zero (by simp) hne) (Nat.le_add_left _ _)
      refine ⟨r, hr, ?_⟩
      rcases hcase with ⟨rfl, js, hv, hjs⟩ | ⟨rfl, hno⟩ | h
      · refine Or.inl ⟨rfl, by omega, by omega, ?_⟩
        obtain ⟨m, x, y, z1, z2⟩ := hR js hv
        obtain ⟨b, w, w'⟩ := acc m ⟨z1, z2⟩
        rw [w, hjs] at y
        simp only [Option.some.injEq] at y
        have hm := w'.1 y
        have hnd : (m.map Prod.fst).Nodup := z1 ▸ c₁.nNodup
        refine ⟨fun n => (m.get n).getD 0, fun n hn => ?_⟩
        obtain ⟨p, hp, hpn⟩ := List.mem_map.1 (z1 ▸ hn : n ∈ m.map Prod.fst)
        have hg := get_of_mem hnd (a := p.1) (b := p.2) hp
        rw [hpn] at hg
        simp only [hg, Option.getD_some]
        obtain ⟨q1, q2⟩ := z2 p hp
        obtain ⟨q3, q4⟩ := hm p hp
        rw [hpn] at q2 q3 q4
        refine ⟨q1, q2, q3, fun x hx => ?_⟩
        obtain ⟨y, hy, k1, k2⟩ := q4 x hx
        exact ⟨y, hy, by rw [k1]; rfl, k2⟩
      · refine Or.inr (Or.inl ⟨rfl, fun ⟨_, _, f, hh⟩ => ?_⟩)
        obtain ⟨is, hv, hb⟩ := build_pick (ns2 := (Spec.run ops₂).nodes) (nodeEq := nodeEq) (f := f) (m0 := [])
          c₁.nNodup (by simp) (fun n hn => ⟨(hh n hn).1, (hh n hn).2.1⟩)
        have hfalse := hno is hv (by rw [val_zero]; exact Nat.zero_le _)
        obtain ⟨m, x, y, z⟩ := hR is hv
        rw [hb] at x
        simp only [List.nil_append, Option.some.injEq] at x
        subst x
        obtain ⟨b, w, w'⟩ := acc _ z
        rw [w, hfalse] at y
        simp only [Option.some.injEq] at y
        have : b = true := w'.2 (fun p hp => by
          obtain ⟨n, hn, rfl⟩ := List.mem_map.1 hp
          obtain ⟨_, _, q3, q4⟩ := hh n hn
          refine ⟨q3, fun x hx => ?_⟩
          obtain ⟨y, hy, k1, k2⟩ := q4 x hx
          refine ⟨y, hy, ?_, k2⟩
          rw [get_graph, if_pos (hto c₁ n x hx).2, k1])
        rw [this] at y; cases y
      · exact Or.inr (Or.inr h)

/-! ## C35 -/

theorem BijOn.length {f : Nat → Nat} {xs ys : List Nat} (h : BijOn f xs ys) (hx : xs.Nodup) (hy : ys.Nodup) :
    xs.length = ys.length := by
  have hp : (xs.map f).Perm ys := by
    rw [List.perm_ext_iff_of_nodup _ hy]
    · intro a
      rw [List.mem_map]
      exact ⟨fun ⟨x, hx, e⟩ => e ▸ h.1 x hx, fun ha => h.2.2 a ha⟩
    · rw [List.nodup_map_iff_inj_on hx]
      exact h.2.1
  rw [← hp.length_eq, List.length_map]

theorem Isomorphic.weakly {σ₁ σ₂ : Spec} {nodeEq edgeEq : Nat → Nat → Bool} (h : Isomorphic σ₁ σ₂ nodeEq edgeEq)
    (n₁ : σ₁.nodes.Nodup) (n₂ : σ₂.nodes.Nodup) (e₁ : σ₁.edges.Nodup) (e₂ : σ₂.edges.Nodup)
    (ends₁ : ∀ e ∈ σ₁.edges, σ₁.src e ∈ σ₁.nodes) : WeaklyIsomorphic σ₁ σ₂ nodeEq edgeEq := by
  obtain ⟨f, h, hf, hh, hn, he, hends⟩ := h
  refine ⟨hf.length n₁ n₂, hh.length e₁ e₂, f, fun n hnn => ⟨hf.1 n hnn, hn n hnn, ?_, fun x hx => ?_⟩⟩
  · apply BijOn.length (f := h) _ (e₁.filter _) (e₂.filter _)
    refine ⟨fun x hx => ?_, fun x hx y hy => ?_, fun y hy => ?_⟩
    · obtain ⟨a, b⟩ := List.mem_filter.1 hx
      rw [decide_eq_true_eq] at b
      exact List.mem_filter.2 ⟨hh.1 x a, by rw [decide_eq_true_eq, (hends x a).1, b]⟩
    · exact hh.2.1 x (List.mem_filter.1 hx).1 y (List.mem_filter.1 hy).1
    · obtain ⟨a, b⟩ := List.mem_filter.1 hy
      rw [decide_eq_true_eq] at b
      obtain ⟨x, hx, rfl⟩ := hh.2.2 y a
      rw [(hends x hx).1] at b
      exact ⟨x, List.mem_filter.2 ⟨hx, by rw [decide_eq_true_eq]; exact hf.2.1 _ (ends₁ x hx) _ hnn b⟩, rfl⟩
  · obtain ⟨a, b⟩ := List.mem_filter.1 hx
    rw [decide_eq_true_eq] at b
    exact ⟨h x, List.mem_filter.2 ⟨hh.1 x a, by rw [decide_eq_true_eq, (hends x a).1, b]⟩, (hends x a).2, he x a⟩

/-- The full property C35 for two histories. -/
def C35_statement (ops₁ ops₂ : List Op) : Prop :=
  ∀ s₁ s₂, run ops₁ = some s₁ → run ops₂ = some s₂ → ∀ nodeEq edgeEq : Nat → Nat → Bool,
    Isomorphic (Spec.run ops₁) (Spec.run ops₂) nodeEq edgeEq →
    checkIsomorphism (fun _ => false) s₁ s₂ nodeEq edgeEq = some (.ok true)

/-- C35 for the histories after which the enumeration of the nodes and the number of edges are right.
Missing: the other histories, for which it is false (`C35_false`). -/
theorem C35_partial (ops₁ ops₂ : List Op) (h₁ : Countable ops₁) (h₂ : Countable ops₂) : C35_statement ops₁ ops₂ := by
  intro s₁ s₂ hs₁ hs₂ nodeEq edgeEq hi
  have c₁ := Core.run h₁.1 hs₁
  have c₂ := Core.run h₂.1 hs₂
  obtain ⟨r, hr, hc⟩ := C36_decides ops₁ ops₂ h₁ h₂ s₁ s₂ hs₁ hs₂ nodeEq edgeEq (fun _ => false)
  rw [hr]
  rcases hc with ⟨rfl, _⟩ | ⟨_, hn⟩ | ⟨_, _, h⟩
  · rfl
  · exact absurd (hi.weakly c₁.nNodup c₂.nNodup c₁.eNodup c₂.eNodup (fun e he => (c₁.ends e he).1)) hn
  · cases h

/-- The same node created after a removal is never reached by `GetNodes`, so an edge to it has no partner. -/
def lostNode : List Op := [.newNode [] [], .newNode [] [], .detachRemove 1, .newNode [] [], .newEdge 0 2 "e" []]

/-- The full property C35 does not hold: this graph is not recognised as isomorphic to itself. -/
theorem C35_false : ¬ ∀ ops₁ ops₂, Spec.ValidHistory ops₁ → Spec.ValidHistory ops₂ → C35_statement ops₁ ops₂ := by
  intro h
  have hv : Spec.ValidHistory lostNode := by decide +kernel
  have h0 : (run lostNode).map (fun s => (s.getNodes,
      isIsomorphism s s (fun a b => a = b) [(0, 0)] [(0, 0)])) = some (some [0], some false) := by decide +kernel
  cases hr : run lostNode with
  | none => rw [hr] at h0; cases h0
  | some s =>
    rw [hr] at h0
    simp only [Option.map_some, Option.some.injEq, Prod.mk.injEq] at h0
    obtain ⟨h1, h2⟩ := h0
    have key := h lostNode lostNode hv hv s s hr hr (fun a b => a = b) (fun a b => a = b)
      ⟨id, id, ⟨by simp, by simp, by simp⟩, ⟨by simp, by simp, by simp⟩, by simp, by simp, by simp⟩
    have hf : fill (fun _ => false) (fun a b => decide (a = b)) [0] [0] 0 = .ok [[0]] := rfl
    unfold checkIsomorphism at key
    rw [if_neg (by simp), h1] at key
    simp only [hf] at key
    rw [search_last (m := [(0, 0)]) (by decide) h2 (by decide)] at key
    cases key

example : Countable demoOps := by unfold Countable; decide +kernel

/-! ## C36 -/

/-- The full property C36 for two histories. -/
def C36_statement (ops₁ ops₂ : List Op) : Prop :=
  ∀ s₁ s₂, run ops₁ = some s₁ → run ops₂ = some s₂ → ∀ (nodeEq edgeEq : Nat → Nat → Bool) (cancelled : Nat → Bool),
    checkIsomorphism cancelled s₁ s₂ nodeEq edgeEq = some (.ok true) →
    Isomorphic (Spec.run ops₁) (Spec.run ops₂) nodeEq edgeEq

/-- A map from a list to a list of the same length is onto if it is one to one. -/
theorem bijOn_of_injOn {f : Nat → Nat} {xs ys : List Nat} (hx : xs.Nodup) (hy : ys.Nodup) (hl : xs.length = ys.length)
    (h1 : ∀ x ∈ xs, f x ∈ ys) (h2 : ∀ x ∈ xs, ∀ y ∈ xs, f x = f y → x = y) : BijOn f xs ys := by
  refine ⟨h1, h2, fun y hyy => ?_⟩
  have hn : (xs.map f).Nodup := (List.nodup_map_iff_inj_on hx).2 h2
  have hsub : (xs.map f).Subperm ys := List.subperm_of_subset hn (fun a ha => by
    obtain ⟨x, hx, rfl⟩ := List.mem_map.1 ha
    exact h1 x hx)
  have hp := hsub.perm_of_length_le (by simp [hl])
  obtain ⟨x, hx, e⟩ := List.mem_map.1 (hp.mem_iff.2 hyy)
  exact ⟨x, hx, e⟩

/-- C36 for node equivalences that give every node of the second graph at most one partner, and edge equivalences that
tell parallel edges apart. Missing: other equivalences, for which it is false (`C36_false`). -/
theorem C36_partial (ops₁ ops₂ : List Op) (h₁ : Countable ops₁) (h₂ : Countable ops₂) (s₁ s₂ : State)
    (hs₁ : run ops₁ = some s₁) (hs₂ : run ops₂ = some s₂) (nodeEq edgeEq : Nat → Nat → Bool) (cancelled : Nat → Bool)
    (hn : ∀ n ∈ (Spec.run ops₁).nodes, ∀ n' ∈ (Spec.run ops₁).nodes, ∀ m ∈ (Spec.run ops₂).nodes,
      nodeEq n m = true → nodeEq n' m = true → n = n')
    (he : ∀ e ∈ (Spec.run ops₁).edges, ∀ e' ∈ (Spec.run ops₁).edges, (Spec.run ops₁).src e = (Spec.run ops₁).src e' →
      (Spec.run ops₁).dst e = (Spec.run ops₁).dst e' → ∀ x ∈ (Spec.run ops₂).edges,
      edgeEq e x = true → edgeEq e' x = true → e = e')
    (hr : checkIsomorphism cancelled s₁ s₂ nodeEq edgeEq = some (.ok true)) :
    Isomorphic (Spec.run ops₁) (Spec.run ops₂) nodeEq edgeEq := by
  have c₁ := Core.run h₁.1 hs₁
  have c₂ := Core.run h₂.1 hs₂
  obtain ⟨r, hr', hc⟩ := C36_decides ops₁ ops₂ h₁ h₂ s₁ s₂ hs₁ hs₂ nodeEq edgeEq cancelled
  rw [hr] at hr'; cases hr'
  rcases hc with ⟨_, l1, l2, f, hf⟩ | ⟨h, _⟩ | ⟨h, _⟩
  · have hbij : BijOn f (Spec.run ops₁).nodes (Spec.run ops₂).nodes :=
      bijOn_of_injOn c₁.nNodup c₂.nNodup l1 (fun n h => (hf n h).1) (fun a ha b hb e =>
        hn a ha b hb (f a) (hf a ha).1 (hf a ha).2.1 (e ▸ (hf b hb).2.1))
    have hex : ∀ e, ∃ x, e ∈ (Spec.run ops₁).edges → x ∈ (Spec.run ops₂).edges ∧
        (Spec.run ops₂).src x = f ((Spec.run ops₁).src e) ∧ (Spec.run ops₂).dst x = f ((Spec.run ops₁).dst e) ∧
        edgeEq e x = true := by
      intro e
      by_cases hee : e ∈ (Spec.run ops₁).edges
      · obtain ⟨_, _, _, k⟩ := hf _ (c₁.ends e hee).1
        obtain ⟨x, hx, k1, k2⟩ := k e (List.mem_filter.2 ⟨hee, by simp⟩)
        obtain ⟨x1, x2⟩ := List.mem_filter.1 hx
        exact ⟨x, fun _ => ⟨x1, by simpa using x2, k1, k2⟩⟩
      · exact ⟨0, fun h => absurd h hee⟩
    obtain ⟨g, hg⟩ := Classical.axiomOfChoice hex
    refine ⟨f, g, hbij, bijOn_of_injOn c₁.eNodup c₂.eNodup l2 (fun e h => (hg e h).1) (fun a ha b hb e => ?_),
      fun n h => (hf n h).2.1, fun e h => (hg e h).2.2.2, fun e h => ⟨(hg e h).2.1, (hg e h).2.2.1⟩⟩
    obtain ⟨a1, a2, a3, a4⟩ := hg a ha
    obtain ⟨b1, b2, b3, b4⟩ := hg b hb
    rw [e] at a1 a2 a3 a4
    exact he a ha b hb (hbij.2.1 _ (c₁.ends a ha).1 _ (c₁.ends b hb).1 (a2.symm.trans b2))
      (hbij.2.1 _ (c₁.ends a ha).2 _ (c₁.ends b hb).2 (a3.symm.trans b3)) _ b1 a4 b4
  · cases h
  · cases h

def twoA : List Op := [.newNode ["A"] [], .newNode ["A"] []]
def oneA : List Op := [.newNode ["A"] [], .newNode ["B"] []]

/-- Nodes are equivalent if they have the same labels. -/
def sameLabels (s₁ s₂ : State) (n m : Nat) : Bool := s₁.nodeGetLabels n == s₂.nodeGetLabels m

/-- The full property C36 does not hold: two nodes labelled A, A "are" two nodes labelled A, B. -/
theorem C36_false : ¬ ∀ ops₁ ops₂, Countable ops₁ → Countable ops₂ → C36_statement ops₁ ops₂ := by
  intro h
  have v1 : Countable twoA := by unfold Countable; decide +kernel
  have v2 : Countable oneA := by unfold Countable; decide +kernel
  have hl : (run twoA).map (fun s => (s.nodeGetLabels 0, s.nodeGetLabels 1)) = some (["A"], ["A"]) ∧
    (run oneA).map (fun s => (s.nodeGetLabels 0, s.nodeGetLabels 1)) = some (["A"], ["B"]) := by decide +kernel
  have hσ : (Spec.run twoA).nodes = [0, 1] ∧ (Spec.run oneA).nodes = [0, 1] ∧ (Spec.run twoA).edges = [] ∧
    (Spec.run oneA).edges = [] := by decide +kernel
  obtain ⟨p1, p2, p3, p4⟩ := hσ
  cases h1 : run twoA with
  | none => rw [h1] at hl; cases hl.1
  | some s₁ =>
    cases h2 : run oneA with
    | none => rw [h2] at hl; cases hl.2
    | some s₂ =>
      rw [h1, h2] at hl
      simp only [Option.map_some, Option.some.injEq, Prod.mk.injEq] at hl
      obtain ⟨⟨a0, a1⟩, b0, b1⟩ := hl
      have hw : WeaklyIsomorphic (Spec.run twoA) (Spec.run oneA) (sameLabels s₁ s₂) (fun _ _ => true) := by
        refine ⟨by rw [p1, p2], by rw [p3, p4], fun _ => 0, fun n hn => ?_⟩
        rw [p1] at hn
        simp only [Spec.outEdges, p3, p4, p2]
        simp only [List.mem_cons, List.not_mem_nil, or_false] at hn
        rcases hn with rfl | rfl <;> simp [sameLabels, a0, a1, b0]
      obtain ⟨r, hr, hc⟩ := C36_decides twoA oneA v1 v2 s₁ s₂ h1 h2 (sameLabels s₁ s₂) (fun _ _ => true) (fun _ => false)
      rcases hc with ⟨rfl, _⟩ | ⟨_, hh⟩ | ⟨_, _, hh⟩
      · obtain ⟨f, _, ⟨_, _, hsur⟩, _, hn, _⟩ := h twoA oneA v1 v2 s₁ s₂ h1 h2 _ _ _ hr
        obtain ⟨x, hx, hfx⟩ := hsur 1 (by rw [p2]; simp)
        have := hn x hx
        rw [hfx] at this
        rw [p1] at hx
        simp only [List.mem_cons, List.not_mem_nil, or_false] at hx
        rcases hx with rfl | rfl <;> simp [sameLabels, a0, a1, b1] at this
      · exact hh hw
      · cases hh

end LPG
