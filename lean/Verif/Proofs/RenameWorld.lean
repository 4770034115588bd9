import Verif.Proofs.RenameState
import Mathlib.Data.Nat.Nth
/-! Every graph of a program is a renamed copy of a graph that is alone. -/
namespace LPG
open State

theorem Op.exists_ren {N E : Nat → Prop} {ρ : Nat → Nat} {op : Op} (h : op.ArgsIn N E) (hN : ∀ x, N x → ∃ y, ρ y = x)
    (hE : ∀ x, E x → ∃ y, ρ y = x) : ∃ op0 : Op, op0.ren ρ = op := by
  cases op with
  | newNode ls ps => exact ⟨.newNode ls ps, rfl⟩
  | newEdge a b l ps =>
    obtain ⟨x, rfl⟩ := hN _ h.1
    obtain ⟨y, rfl⟩ := hN _ h.2
    exact ⟨.newEdge x y l ps, rfl⟩
  | setLabels n ls => obtain ⟨x, rfl⟩ := hN _ h; exact ⟨.setLabels x ls, rfl⟩
  | setNodeProp n k v => obtain ⟨x, rfl⟩ := hN _ h; exact ⟨.setNodeProp x k v, rfl⟩
  | removeNodeProp n k => obtain ⟨x, rfl⟩ := hN _ h; exact ⟨.removeNodeProp x k, rfl⟩
  | detach n => obtain ⟨x, rfl⟩ := hN _ h; exact ⟨.detach x, rfl⟩
  | detachRemove n => obtain ⟨x, rfl⟩ := hN _ h; exact ⟨.detachRemove x, rfl⟩
  | setEdgeLabel e l => obtain ⟨x, rfl⟩ := hE _ h; exact ⟨.setEdgeLabel x l, rfl⟩
  | setEdgeProp e k v => obtain ⟨x, rfl⟩ := hE _ h; exact ⟨.setEdgeProp x k v, rfl⟩
  | removeEdgeProp e k => obtain ⟨x, rfl⟩ := hE _ h; exact ⟨.removeEdgeProp x k, rfl⟩
  | removeEdge e => obtain ⟨x, rfl⟩ := hE _ h; exact ⟨.removeEdge x, rfl⟩
  | addNodeIndex k t => exact ⟨.addNodeIndex k t, rfl⟩
  | addEdgeIndex k t => exact ⟨.addEdgeIndex k t, rfl⟩

theorem Ren.agree {N E : Nat → Prop} {ρ : Nat → Nat} {s a b : State} (r : Ren N E ρ s a) (h : Agree N E a b) : Ren N E ρ s b :=
  ⟨h.allNodes.trans r.allNodes, h.allEdges.trans r.allEdges, h.byLabel.trans r.byLabel, h.nodeIx.trans r.nodeIx,
   h.edgeIx.trans r.edgeIx, fun x hx => (h.node _ hx).1.trans (r.next x hx), fun x hx => (h.node _ hx).2.1.trans (r.prev x hx),
   fun x hx => (h.node _ hx).2.2.1.trans (r.nLabels x hx), fun x hx => (h.node _ hx).2.2.2.1.trans (r.nProps x hx),
   fun x hx => (h.node _ hx).2.2.2.2.1.trans (r.incoming x hx), fun x hx => (h.node _ hx).2.2.2.2.2.trans (r.outgoing x hx),
   fun x hx => (h.edge _ hx).1.trans (r.eFrom x hx), fun x hx => (h.edge _ hx).2.1.trans (r.eTo x hx),
   fun x hx => (h.edge _ hx).2.2.1.trans (r.eLabel x hx), fun x hx => (h.edge _ hx).2.2.2.1.trans (r.eProps x hx),
   fun x hx => (h.edge _ hx).2.2.2.2.1.trans (r.slot0 x hx), fun x hx => (h.edge _ hx).2.2.2.2.2.1.trans (r.slot1 x hx),
   fun x hx => (h.edge _ hx).2.2.2.2.2.2.trans (r.slot2 x hx)⟩

namespace World

theorem Owned.lt {W : World} (i : Inv W) {g x : Nat} (h : W.Owned g x) : x < W.heap.idBase :=
  h.elim (i.nodeLt x g) (fun h => i.eLt h)

/-- The operation creates an object. -/
def _root_.LPG.Op.allocs : Op → Bool
  | .newNode _ _ => true
  | .newEdge _ _ _ _ => true
  | _ => false

theorem owned_call {W : World} (i : Inv W) {t : Nat} {op : Op} {s : State} (hf : W.foreign t op = false)
    (hs : LPG.step (W.view t) op = some s) (g x : Nat) :
    ((W.alloc t op).store t s).Owned g x ↔ W.Owned g x ∨ (g = t ∧ op.allocs = true ∧ x = W.heap.idBase) := by
  obtain ⟨o1, o2⟩ := owners i hf hs g
  have o1 := o1 x
  have o2 := o2 x
  unfold N at o1
  unfold E at o2
  unfold Owned
  rw [o1, o2]
  have : (W.view t).idBase = W.heap.idBase := rfl
  cases op <;> simp only [Op.freshN, Op.freshE, Op.allocs, and_false, or_false, this] <;> grind

theorem base_call {W : World} {t : Nat} {op : Op} {s : State} (hs : LPG.step (W.view t) op = some s) :
    ((W.alloc t op).store t s).heap.idBase = W.heap.idBase + (if op.allocs then 1 else 0) := by
  obtain ⟨_, h2, _⟩ := step_alloc hs
  have : ((W.alloc t op).store t s).heap.idBase = s.idBase := rfl
  rw [this, h2]
  cases op <;> rfl

/-- Objects keep their graph, and nothing old changes hands. -/
theorem owned_run : ∀ {ops : List (Nat × Op)} {W F : World}, Inv W → runFrom W ops = some F →
    W.heap.idBase ≤ F.heap.idBase ∧ ∀ g x, x < W.heap.idBase → (F.Owned g x ↔ W.Owned g x)
  | [], W, F, _, h => by simp [runFrom] at h; subst h; exact ⟨Nat.le_refl _, fun _ _ _ => Iff.rfl⟩
  | (k, op) :: ops, W, F, i, h => by
    rw [runFrom] at h
    split at h
    · cases h
    · rename_i W' b hs
      obtain ⟨t, ht, ⟨_, _, rfl⟩ | ⟨hf, _, s, hst, rfl⟩⟩ := step_cases hs
      · exact owned_run i h
      · obtain ⟨h1, h2⟩ := owned_run (i.call hf (args_in ht hf) hst) h
        have hb := base_call (W := W) hst
        refine ⟨by omega, fun g x hx => ?_⟩
        rw [h2 g x (by omega), owned_call i hf hst]
        constructor
        · rintro (h | ⟨_, _, h⟩)
          · exact h
          · omega
        · exact Or.inl

section alone
variable {F : World} {g : Nat} {p : Nat → Prop} {ρ : Nat → Nat}

open Classical in
/-- The simulation, from any world on the way to `F`; `p` holds of the objects of the graph and of everything beyond the
end, and `ρ` enumerates `p`. -/
theorem alone_run (hp : ∀ x, p x ↔ F.Owned g x ∨ F.heap.idBase ≤ x) (hinf : (Set.ofPred p).Infinite) (hρ : ρ = Nat.nth p) :
    ∀ {ops : List (Nat × Op)} {W : World} {s : State}, Inv W → runFrom W ops = some F →
      Ren (W.N g) (W.E g) ρ s (W.view g) → s.idBase = Nat.count p W.heap.idBase →
      ∃ ops0 s', ops0.map (Op.ren ρ) = callsOn g W ops ∧ LPG.runFrom s ops0 = some s' ∧
        Ren (F.N g) (F.E g) ρ s' (F.view g) ∧ s'.idBase = Nat.count p F.heap.idBase
  | [], W, s, _, h, r, hb => by
    simp [runFrom] at h; subst h
    exact ⟨[], s, rfl, rfl, r, hb⟩
  | (k, op) :: ops, W, s, i, h, r, hb => by
    have hinj : Function.Injective ρ := by rw [hρ]; exact Nat.nth_injective hinf
    have h0 := h
    rw [runFrom] at h
    split at h
    · cases h
    · rename_i W' b hs
      obtain ⟨t, ht, ⟨hf, rfl, rfl⟩ | ⟨hf, rfl, u, hst, rfl⟩⟩ := step_cases hs
      · obtain ⟨ops0, s', h1, h2⟩ := alone_run hp hinf hρ i h r hb
        exact ⟨ops0, s', by rw [callsOn, hs]; simpa using h1, h2⟩
      · have ha := args_in ht hf
        have i' := i.call hf ha hst
        have hbase := base_call (W := W) hst
        obtain ⟨k1, k2⟩ := owned_run i' h
        have new : op.allocs = true → (p W.heap.idBase ↔ g = t) := by
          intro hal
          rw [hal] at hbase
          simp only [if_true] at hbase
          rw [hp, k2 g _ (by omega), owned_call i hf hst]
          constructor
          · rintro ((h | ⟨h, _⟩) | h)
            · have := h.lt i; omega
            · exact h
            · omega
          · exact fun h => Or.inl (Or.inr ⟨h, hal, rfl⟩)
        by_cases hg : g = t
        · subst hg
          have sur : ∀ x, W.Owned g x → ∃ y, ρ y = x := by
            intro x hx
            have hx' : p x := (hp x).2 (Or.inl (((owned_run i h0).2 g x (hx.lt i)).2 hx))
            exact ⟨Nat.count p x, by rw [hρ]; exact Nat.nth_count hx'⟩
          obtain ⟨op0, rfl⟩ := Op.exists_ren ha (fun x hx => sur x (Or.inl hx)) (fun x hx => sur x (Or.inr hx))
          have low : ∀ x, ρ x < W.heap.idBase → x < s.idBase := by
            intro x hx
            by_contra hc
            rw [hb, Nat.not_lt, Nat.count_le_iff_le_nth hinf, ← hρ] at hc
            omega
          have bel : Below (W.N g) (W.E g) ρ s (W.view g) :=
            ⟨fun x hx => low x (i.nodeLt _ _ hx), fun x hx => low x (i.eLt hx), fun x hx => i.nodeLt _ _ hx, fun x hx => i.eLt hx⟩
          have halloc : (op0.ren ρ).allocs = op0.allocs := by cases op0 <;> rfl
          rw [halloc] at new hbase
          have hid : op0.allocs = true → ρ s.idBase = W.heap.idBase := by
            intro hal
            rw [hb, hρ]
            exact Nat.nth_count ((new hal).2 rfl)
          have hnew : (W.view g).newId (op0.ren ρ) = (s.newId op0).map ρ := by
            cases op0 <;> first | rfl | exact congrArg some (hid rfl).symm
          rcases (r.step hinj (i.closed g) bel ha hnew).elim with ⟨_, e2⟩ | ⟨a, b, e1, e2, r'⟩
          · rw [e2] at hst; cases hst
          · rw [e2] at hst
            cases Option.some.inj hst
            obtain ⟨o1, o2⟩ := owners i hf e2 g
            have rr : Ren (((W.alloc g (op0.ren ρ)).store g u).N g) (((W.alloc g (op0.ren ρ)).store g u).E g) ρ a
                (((W.alloc g (op0.ren ρ)).store g u).view g) := by
              have q1 : ((W.alloc g (op0.ren ρ)).store g u).N g = fun x => W.N g x ∨ (op0.ren ρ).freshN (W.view g) x := by
                funext x; exact propext ((o1 x).trans (by simp))
              have q2 : ((W.alloc g (op0.ren ρ)).store g u).E g = fun x => W.E g x ∨ (op0.ren ρ).freshE (W.view g) x := by
                funext x; exact propext ((o2 x).trans (by simp))
              rw [view_store, q1, q2]; exact r'
            have hab : a.idBase = Nat.count p ((W.alloc g (op0.ren ρ)).store g u).heap.idBase := by
              rw [(step_alloc e1).2.1, hbase, hb]
              cases hal : op0.allocs with
              | false => cases op0 <;> first | rfl | cases hal
              | true =>
                have : Nat.count p (W.heap.idBase + 1) = Nat.count p W.heap.idBase + 1 := by
                  rw [Nat.count_succ, if_pos ((new hal).2 rfl)]
                simp only [if_true, this]
                cases op0 <;> first | rfl | cases hal
            obtain ⟨ops0, s', h1, h2, h3, h4⟩ := alone_run hp hinf hρ i' h rr hab
            refine ⟨op0 :: ops0, s', ?_, ?_, h3, h4⟩
            · rw [callsOn, hs]
              simp only [ht, and_self, if_true, List.map_cons, h1]
            · rw [LPG.runFrom, e1]; exact h2
        · obtain ⟨o1, o2⟩ := owners i hf hst g
          have rr : Ren (((W.alloc t op).store t u).N g) (((W.alloc t op).store t u).E g) ρ s
              (((W.alloc t op).store t u).view g) := by
            have q1 : ((W.alloc t op).store t u).N g = W.N g := by
              funext x; exact propext ((o1 x).trans (by simp [hg]))
            have q2 : ((W.alloc t op).store t u).E g = W.E g := by
              funext x; exact propext ((o2 x).trans (by simp [hg]))
            rw [q1, q2]
            exact r.agree (others i ha hst hg)
          have hab : s.idBase = Nat.count p ((W.alloc t op).store t u).heap.idBase := by
            rw [hbase, hb]
            cases hal : op.allocs with
            | false => rfl
            | true =>
              simp only [if_true]
              rw [Nat.count_succ, if_neg (fun h => hg ((new hal).1 h))]
              rfl
          obtain ⟨ops0, s', h1, h2⟩ := alone_run hp hinf hρ i' h rr hab
          refine ⟨ops0, s', ?_, h2⟩
          rw [callsOn, hs, h1]
          have : ¬ t = g := fun e => hg e.symm
          simp only [ht, Option.some.injEq, this, false_and, if_false]

end alone

end World
end LPG
