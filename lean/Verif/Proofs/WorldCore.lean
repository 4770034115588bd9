import Verif.Proofs.World
import Verif.Proofs.NodeListExact
import Verif.Proofs.FiledEdges
import Verif.Spec.World
/-! The invariants of one graph hold for each graph of a program with several graphs. -/
namespace LPG
open State

/-! ## Agreement keeps the invariants -/

theorem Core.agree {N E : Nat → Prop} {s s' : State} {σ : Spec} {m : Nat} (c : Core s σ) (a : Agree N E s s')
    (hN : ∀ n ∈ σ.nodes, N n) (hE : ∀ e ∈ σ.edges, E e) (hm : s'.idBase = m) (hb : s.idBase ≤ m) :
    Core s' { σ with next := m } := by
  have hnx := c.next
  refine ⟨hm, c.nNodup, c.eNodup, fun n hn => ?_, fun e he => ?_, c.disj, fun n hn => ?_, fun n hn => ?_, fun e he => ?_,
    fun e he => ?_, c.ends, fun n hn => ?_, fun n hn => ?_, ?_⟩
  · have := c.nLt n hn; simp only; omega
  · have := c.eLt e he; simp only; omega
  · rw [(a.node n (hN n hn)).2.2.1]; exact c.labels n hn
  · rw [(a.node n (hN n hn)).2.2.2.1]; exact c.nprops n hn
  · obtain ⟨h1, h2, h3, _⟩ := a.edge e (hE e he); rw [h1, h2, h3]; exact c.eattr e he
  · rw [(a.edge e (hE e he)).2.2.2.1]; exact c.eprops e he
  · obtain ⟨xs, hp, hr⟩ := c.out n hn
    have hx : ∀ x ∈ xs, E x := fun x hx => hE x (List.mem_filter.1 (hp.mem_iff.1 hx)).1
    refine ⟨xs, hp, ?_⟩
    rw [(a.node n (hN n hn)).2.2.2.2.2]
    exact hr.congr (fun x h => (a.edge x (hx x h)).2.2.2.2.2.1) (fun x h => (a.edge x (hx x h)).2.2.1)
  · obtain ⟨xs, hp, hr⟩ := c.inc n hn
    have hx : ∀ x ∈ xs, E x := fun x hx => hE x (List.mem_filter.1 (hp.mem_iff.1 hx)).1
    refine ⟨xs, hp, ?_⟩
    rw [(a.node n (hN n hn)).2.2.2.2.1]
    exact hr.congr (fun x h => (a.edge x (hx x h)).2.2.2.2.2.2) (fun x h => (a.edge x (hx x h)).2.2.1)
  · rw [a.allNodes]; exact c.count

theorem NOk.agree {N E : Nat → Prop} {s s' : State} {σ : Spec} {f : ListFlags} (h : NOk s σ f)
    (a : Agree N E s s') (hN : ∀ n ∈ σ.nodes, N n) {m : Nat} (hm : σ.next ≤ m) : NOk s' { σ with next := m } f := by
  obtain ⟨⟨pr, hv, h1, h2⟩, h3, h4⟩ := h
  refine ⟨⟨pr, hv.agree (by rw [a.allNodes]) (fun x hx => ?_), h1, h2⟩, ?_, ?_⟩
  · obtain ⟨g1, g2, _⟩ := a.node x (hN x hx)
    exact ⟨g1, g2⟩
  · rw [a.allNodes]; exact h3
  · rw [a.allNodes]
    intro hg
    obtain ⟨t, g1, g2, g3⟩ := h4 hg
    exact ⟨t, g1, g2, Nat.lt_of_lt_of_le g3 hm⟩

theorem AEx.agree {N E : Nat → Prop} {g : Nat → String} {s s' : State} {σ : Spec} (h : AEx g s σ)
    (a : Agree N E s s') (hE : ∀ e ∈ σ.edges, E e) (m : Nat) : AEx g s' { σ with next := m } := by
  obtain ⟨xs, hp, hr⟩ := h
  refine ⟨xs, hp, ?_⟩
  rw [a.allEdges]
  exact hr.congr (fun x hx => (a.edge x (hE x (hp.mem_iff.1 hx))).2.2.2.2.1) (fun _ _ => rfl)

/-! ## The invariant of a program -/

namespace World

/-- Each graph of the program is the abstract graph of its name. -/
structure Rep (W : World) (ω : WSpec) : Prop where
  inv : Inv W
  core : ∀ g, Core (W.view g) (ω g)
  ownN : ∀ g, ∀ n ∈ (ω g).nodes, W.N g n
  ownE : ∀ g, ∀ e ∈ (ω g).edges, W.E g e

/-- The lists of all nodes and all edges of graph `g` are right. -/
structure Lists (W : World) (ω : WSpec) (d : ListFlags) (R : Nat → String) (g : Nat) : Prop where
  nodes : NOk (W.view g) (ω g) d
  edges : AEx R (W.view g) (ω g)

theorem Rep.init : Rep World.new WSpec.new := by
  refine ⟨Inv.init, fun g => ?_, by simp [WSpec.new, Spec.new], by simp [WSpec.new, Spec.new]⟩
  exact Core.init

theorem Lists.init (g : Nat) : Lists World.new WSpec.new { gone := false, restart := none } (fun _ => "") g :=
  ⟨NOk.init, AEx.init⟩

/-- A valid call acts on the graph it is written with and does not meet a foreign node. -/
theorem Rep.target {W : World} {ω : WSpec} (r : Rep W ω) {g : Nat} {op : Op} (hv : (ω g).Valid op) :
    W.target g op = some g ∧ W.foreign g op = false := by
  cases op <;> simp only [Spec.Valid] at hv <;>
    simp only [World.target, foreign, Bool.or_eq_false_iff, decide_eq_false_iff_not, Decidable.not_not, ne_eq, and_true, true_and, and_self]
  case newEdge => exact ⟨r.ownN g _ hv.1, r.ownN g _ hv.2.1⟩
  case setLabels => exact r.ownN g _ hv.1
  all_goals first | exact r.ownN g _ hv | exact r.ownE g _ hv

theorem spec_step_next {σ : Spec} {op : Op} :
    (σ.step op).next = σ.next + (match op with | .newNode _ _ => 1 | .newEdge _ _ _ _ => 1 | _ => 0) := by
  cases op <;> rfl

theorem spec_step_mem {σ : Spec} {op : Op} :
    (∀ n ∈ (σ.step op).nodes, n ∈ σ.nodes ∨ (n = σ.next ∧ ∃ ls ps, op = .newNode ls ps)) ∧
    (∀ e ∈ (σ.step op).edges, e ∈ σ.edges ∨ (e = σ.next ∧ ∃ a b l ps, op = .newEdge a b l ps)) := by
  cases op <;> simp only [Spec.step, Spec.detach, Spec.dropEdge, List.mem_append, List.mem_filter, List.mem_singleton] <;>
    grind

theorem Rep.step {W W' : World} {ω : WSpec} (r : Rep W ω) {g : Nat} {op : Op} {b : Bool} (hv : (ω g).Valid op)
    (hs : W.step g op = some (W', b)) :
    b = false ∧ Rep W' (ω.step g op) ∧ LPG.step (W.view g) op = some (W'.view g) ∧
    (∀ h, h ≠ g → Agree (W.N h) (W.E h) (W.view h) (W'.view h)) := by
  obtain ⟨ht, hf⟩ := r.target hv
  obtain ⟨t, ht', ⟨hf', _, _⟩ | ⟨_, hbf, s, hs', rfl⟩⟩ := step_cases hs
  · rw [ht] at ht'; cases ht'; rw [hf] at hf'; cases hf'
  · rw [ht] at ht'; cases ht'
    have i := r.inv
    have ag : ∀ h, h ≠ g → Agree (W.N h) (W.E h) (W.view h) (((W.alloc g op).store g s).view h) :=
      fun h hh => others i (args_in ht hf) hs' hh
    have hcore : Core s ((ω g).step op) := (r.core g).step hv hs'
    have hb : ∀ h, (((W.alloc g op).store g s).view h).idBase = s.idBase := fun h => rfl
    refine ⟨hbf, ⟨i.call hf (args_in ht hf) hs', fun h => ?_, fun h n hn => ?_, fun h e he => ?_⟩,
      by rw [view_store]; exact hs', ag⟩
    · by_cases hh : h = g
      · subst hh; rw [view_store]; simp only [WSpec.step, if_true]; exact hcore
      · simp only [WSpec.step, if_neg hh]
        refine (r.core h).agree (ag h hh) (r.ownN h) (r.ownE h) (by rw [hb, hcore.next]) ?_
        have h1 : (W.view h).idBase = (ω g).next := (r.core g).next
        rw [h1, spec_step_next]
        exact Nat.le_add_right _ _
    · refine ((owners i hf hs' h).1 n).2 ?_
      by_cases hh : h = g
      · subst hh
        simp only [WSpec.step, if_true] at hn
        rcases spec_step_mem.1 n hn with h1 | ⟨h1, ls, ps, rfl⟩
        · exact Or.inl (r.ownN h n h1)
        · exact Or.inr ⟨rfl, h1.trans (r.core h).next.symm⟩
      · simp only [WSpec.step, if_neg hh] at hn
        exact Or.inl (r.ownN h n hn)
    · refine ((owners i hf hs' h).2 e).2 ?_
      by_cases hh : h = g
      · subst hh
        simp only [WSpec.step, if_true] at he
        rcases spec_step_mem.2 e he with h1 | ⟨h1, a, b, l, ps, rfl⟩
        · exact Or.inl (r.ownE h e h1)
        · exact Or.inr ⟨rfl, h1.trans (r.core h).next.symm⟩
      · simp only [WSpec.step, if_neg hh] at he
        exact Or.inl (r.ownE h e he)

/-- The other graphs own the nodes and edges that they owned. -/
theorem Rep.owned {W W' : World} {ω : WSpec} (r : Rep W ω) {g : Nat} {op : Op} {b : Bool} (hv : (ω g).Valid op)
    (hs : W.step g op = some (W', b)) (h : Nat) (hh : h ≠ g) :
    (∀ x, W'.N h x ↔ W.N h x) ∧ (∀ x, W'.E h x ↔ W.E h x) := by
  obtain ⟨ht, hf⟩ := r.target hv
  obtain ⟨t, ht', ⟨hf', _, _⟩ | ⟨_, hbf, s, hs', rfl⟩⟩ := step_cases hs
  · rw [ht] at ht'; cases ht'; rw [hf] at hf'; cases hf'
  · rw [ht] at ht'; cases ht'
    obtain ⟨h1, h2⟩ := owners r.inv hf hs' h
    exact ⟨fun x => (h1 x).trans (by simp [hh]), fun x => (h2 x).trans (by simp [hh])⟩

theorem Rep.base_le {W W' : World} {ω : WSpec} (r : Rep W ω) {g : Nat} {op : Op} {b : Bool} (hv : (ω g).Valid op)
    (hs : W.step g op = some (W', b)) : W.heap.idBase ≤ W'.heap.idBase := by
  obtain ⟨_, r', _⟩ := r.step hv hs
  have h1 : W.heap.idBase = (ω g).next := (r.core g).next
  have h2 : W'.heap.idBase = ((ω.step g op) g).next := (r'.core g).next
  rw [h1, h2]
  simp only [WSpec.step, if_true]
  rw [spec_step_next]
  exact Nat.le_add_right _ _

/-- the other graphs keep their lists -/
theorem Lists.other {W W' : World} {ω : WSpec} (r : Rep W ω) {g h : Nat} {op : Op} {d : ListFlags}
    {R : Nat → String} (l : Lists W ω d R h) (hh : h ≠ g)
    (a : Agree (W.N h) (W.E h) (W.view h) (W'.view h)) :
    Lists W' (ω.step g op) d R h := by
  have e1 : (ω.step g op) h = { ω h with next := ((ω g).step op).next } := by simp only [WSpec.step, if_neg hh]
  refine ⟨?_, ?_⟩
  · rw [e1]
    refine l.nodes.agree a (r.ownN h) ?_
    have h1 : (ω h).next = (ω g).next := (r.core h).next.symm.trans (r.core g).next
    rw [spec_step_next]; omega
  · rw [e1]; exact l.edges.agree a (r.ownE h) _

/-- the graph that is called -/
theorem Lists.own {W W' : World} {ω : WSpec} (r : Rep W ω) {g : Nat} {op : Op} {b : Bool} {d : ListFlags}
    {R : Nat → String} (l : Lists W ω d R g) (hv : (ω g).Valid op) (hs : W.step g op = some (W', b))
    (hd : (ω g).ListSafe d op) (hR : (ω g).FiledSafe R op) :
    Lists W' (ω.step g op) ((ω g).listFlags d op) ((ω g).filed R op) g := by
  obtain ⟨_, _, h1, _⟩ := r.step hv hs
  have e1 : (ω.step g op) g = (ω g).step op := by simp only [WSpec.step, if_true]
  refine ⟨?_, ?_⟩
  · rw [e1]; exact l.nodes.step (r.core g) hv h1 hd
  · rw [e1]; exact l.edges.step (r.core g) hv h1 hR

/-- The lists are right, and a node may be created. -/
def Ready (W : World) (ω : WSpec) (g : Nat) : Prop :=
  ∃ d R, Lists W ω d R g ∧ (d.gone = false ∨ (ω g).nodes = [])

theorem Ready.newNode {W W' : World} {ω : WSpec} (r : Rep W ω) {g : Nat} {ls : List String} {ps : Props} {b : Bool}
    (l : Ready W ω g) (hv : (ω g).Valid (.newNode ls ps)) (hs : W.step g (.newNode ls ps) = some (W', b)) :
    Ready W' (ω.step g (.newNode ls ps)) g := by
  obtain ⟨d, R, l, hd⟩ := l
  exact ⟨_, _, l.own r hv hs hd (Or.inr (fun e he hn => absurd he hn)), Or.inl rfl⟩

theorem Ready.newEdge {W W' : World} {ω : WSpec} (r : Rep W ω) {g : Nat} {x y : Nat} {lb : String} {ps : Props} {b : Bool}
    (l : Ready W ω g) (hv : (ω g).Valid (.newEdge x y lb ps)) (hs : W.step g (.newEdge x y lb ps) = some (W', b)) :
    Ready W' (ω.step g (.newEdge x y lb ps)) g := by
  obtain ⟨d, R, l, hd⟩ := l
  refine ⟨_, _, l.own r hv hs trivial (Or.inr (fun e he hn => absurd (by simp [Spec.step, he]) hn)), ?_⟩
  simpa [Spec.listFlags, WSpec.step, Spec.step] using hd

theorem Rep.runFrom : ∀ {ops : List (Nat × Op)} {W W' : World} {ω : WSpec}, Rep W ω → ω.ValidFrom ops →
    World.runFrom W ops = some W' → Rep W' (ω.runFrom ops)
  | [], W, W', ω, r, _, h => by cases h; exact r
  | (g, op) :: ops, W, W', ω, r, hv, h => by
    rw [World.runFrom] at h
    split at h
    · cases h
    · rename_i W1 b h1
      exact Rep.runFrom (ops := ops) (ω := ω.step g op) (r.step hv.1 h1).2.1 hv.2 h

theorem Rep.lists {k : Nat} : ∀ {ops : List (Nat × Op)} {W W' : World} {ω : WSpec} {d : ListFlags} {R : Nat → String},
    Rep W ω → Lists W ω d R k → ω.ValidFrom ops → ω.CleanFrom k d R ops → World.runFrom W ops = some W' →
    ∃ d' R', Lists W' (ω.runFrom ops) d' R' k ∧ ∀ more, (ω.CleanFrom k d R (ops ++ more) ↔ (ω.runFrom ops).CleanFrom k d' R' more)
  | [], W, W', ω, d, R, r, l, _, _, h => by cases h; exact ⟨d, R, l, fun _ => Iff.rfl⟩
  | (g, op) :: ops, W, W', ω, d, R, r, l, hv, hc, h => by
    rw [World.runFrom] at h
    split at h
    · cases h
    · rename_i W1 b h1
      obtain ⟨_, r1, _, ag⟩ := r.step hv.1 h1
      have l1 : Lists W1 (ω.step g op) (if g = k then (ω g).listFlags d op else d)
          (if g = k then (ω g).filed R op else R) k := by
        by_cases hk : g = k
        · subst hk
          simp only [if_true]
          exact l.own r hv.1 h1 (hc.1 rfl).1 (hc.1 rfl).2
        · simp only [if_neg hk]
          exact l.other r (Ne.symm hk) (ag k (Ne.symm hk))
      obtain ⟨d', R', l', hm⟩ := Rep.lists (ops := ops) (ω := ω.step g op) r1 l1 hv.2 hc.2 h
      refine ⟨d', R', l', fun more => ?_⟩
      have := hm more
      simp only [List.cons_append, WSpec.CleanFrom]
      rw [this]
      exact ⟨fun h => h.2, fun h => ⟨hc.1, h⟩⟩

/-- A graph with right lists answers the queries rightly. -/
theorem Rep.shows {W : World} {ω : WSpec} {d : ListFlags} {R : Nat → String} {g : Nat} (r : Rep W ω) (l : Lists W ω d R g) :
    Shows (W.view g) (ω g) := by
  have c := r.core g
  exact ⟨l.nodes.getNodes c, l.edges.getEdges c, c.count, l.edges.numEdges, c.labels, fun n hn k => (c.nprops n hn).2 k,
    fun e he => ⟨(c.eattr e he).1, (c.eattr e he).2.1⟩, fun e he => (c.eattr e he).2.2,
    fun e he k => (c.eprops e he).2 k, fun n hn => c.out_enum hn, fun n hn => c.inc_enum hn, ⟨c.nNodup, c.eNodup⟩, c.ends⟩

theorem Ready.shows {W : World} {ω : WSpec} {g : Nat} (r : Rep W ω) (l : Ready W ω g) : Shows (W.view g) (ω g) := by
  obtain ⟨d, R, l, _⟩ := l
  exact r.shows l

end World
end LPG
