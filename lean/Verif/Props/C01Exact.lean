import Verif.Props.C01C04
import Verif.Proofs.NodeListExact
/-!
# C01: exactly when `GetNodes` is right, and what it yields when it is not

`ListOk` (`Verif.Spec.ListOk`) speaks about the operations and the abstract graph only.
-/
namespace LPG

/-- the first unsafe operation of a history -/
theorem Spec.first_unsafe {ops : List Op} : ∀ {σ : Spec} {f : ListFlags}, ¬ σ.ListOkFrom f ops →
    ∃ p op q, ops = p ++ op :: q ∧ σ.ListOkFrom f p ∧ ¬ (σ.runFrom p).ListSafe (σ.flagsFrom f p) op := by
  induction ops with
  | nil => intro σ f h; exact absurd trivial h
  | cons op ops ih =>
    intro σ f h
    by_cases h1 : σ.ListSafe f op
    · have h2 : ¬ (σ.step op).ListOkFrom (σ.listFlags f op) ops := fun h2 => h ⟨h1, h2⟩
      obtain ⟨p, op', q, rfl, h3, h4⟩ := ih h2
      exact ⟨op :: p, op', q, rfl, ⟨h1, h3⟩, h4⟩
    · exact ⟨[], op, ops, rfl, trivial, h1⟩

theorem run_split {p q : List Op} {s : State} (hs : run (p ++ q) = some s) :
    ∃ s1, run p = some s1 ∧ runFrom s1 q = some s := by
  unfold run at hs ⊢
  rw [runFrom_append] at hs
  split at hs
  · cases hs
  · rename_i s1 h1; exact ⟨s1, h1, hs⟩

theorem Spec.run_append {p q : List Op} : Spec.run (p ++ q) = (Spec.run p).runFrom q := by
  unfold Spec.run
  generalize Spec.new = σ
  induction p generalizing σ with
  | nil => rfl
  | cons op p ih => exact ih (σ.step op)

/-- C01 holds for the histories of safe operations (`ListOk`). Missing: the other histories, in which the
property fails after some operation (`C01_iff`). -/
theorem C01_safe_partial (ops : List Op) (hv : Spec.ValidHistory ops) (hc : ListOk ops) : C01_statement ops := by
  intro s hs
  exact (NOk.runFrom Core.init NOk.init hv hc hs).getNodes (Core.run hv hs)

/-- The condition of `C01_partial` is a special case. -/
theorem ListOk.of_noCreate {ops : List Op} (hc : NoCreateAfterTailRemoval ops) : ListOk ops := by
  have key : ∀ (ops : List Op) (σ : Spec) (d : Bool), σ.NoCreateAfterTail d ops →
      σ.ListOkFrom { gone := d, restart := none } ops := by
    intro ops
    induction ops with
    | nil => intros; trivial
    | cons op ops ih =>
      intro σ d h
      have hf : σ.listFlags { gone := d, restart := none } op = { gone := σ.TailGone d op, restart := none } := by
        cases op with
        | newNode ls ps => have := h.1 rfl; subst this; rfl
        | _ => rfl
      refine ⟨?_, by rw [hf]; exact ih _ _ h.2⟩
      cases op with
      | newNode ls ps => exact Or.inl (h.1 rfl)
      | detachRemove n => simp [Spec.ListSafe]
      | _ => trivial
  exact key ops _ _ hc

/-- a graph that was emptied and filled again, with the newest node removed at the end -/
def refillOps : List Op :=
  [.newNode [] [], .newNode [] [], .detachRemove 0, .detachRemove 1, .newNode [] [], .newNode [] [], .newNode [] [],
   .newEdge 2 4 "e" [], .detachRemove 3, .detachRemove 4]

example : Spec.ValidHistory refillOps ∧ ListOk refillOps ∧ ¬ NoCreateAfterTailRemoval refillOps ∧
    (run refillOps).bind State.getNodes = some [2] := by decide +kernel

/-- A node created when the newest live node has been removed and others are left is never enumerated, nor is any
node created after it, as long as the oldest of the old nodes is there: whatever else happens, `GetNodes` yields
the old nodes that are still live, and only those. -/
theorem C01_lost (p q : List Op) (ls : List String) (ps : Props)
    (hv : Spec.ValidHistory (p ++ .newNode ls ps :: q)) (hc : ListOk p) (hg : (flagsAfter p).gone = true)
    (m : Nat) (hm : (Spec.run p).nodes.head? = some m)
    (hl : m ∈ (Spec.run (p ++ .newNode ls ps :: q)).nodes) (s : State)
    (hs : run (p ++ .newNode ls ps :: q) = some s) :
    s.getNodes = some ((Spec.run (p ++ .newNode ls ps :: q)).nodes.filter (· < (Spec.run p).next)) := by
  obtain ⟨s1, hs1, hs2⟩ := run_split hs
  obtain ⟨hv1, hv2⟩ := Spec.validFrom_append.1 hv
  have c1 : Core s1 (Spec.run p) := Core.run hv1 hs1
  have h1 : NOk s1 (Spec.run p) (flagsAfter p) := NOk.runFrom Core.init NOk.init hv1 hc hs1
  rw [runFrom] at hs2
  split at hs2
  · cases hs2
  · rename_i s2 h2
    have c2 := c1.step hv2.1 h2
    have hlost := h1.lost c1 hg hm h2
    have hmn : m < ((Spec.run p).step (.newNode ls ps)).next :=
      Nat.lt_of_lt_of_le (c1.nLt m (List.mem_of_head? hm)) Spec.next_mono
    rw [Spec.run_append] at hl ⊢
    have h3 := hlost.runFrom c2 hmn hv2.2 hl hs2
    obtain ⟨pr, hvis⟩ := h3.vis
    have c : Core s ((Spec.run p).runFrom (.newNode ls ps :: q)) := by
      have := Core.run hv hs; rwa [Spec.run_append] at this
    exact hvis.walk (c.nNodup.filter _) (fun x hx => by rw [c.next]; exact c.nLt x (List.mem_filter.1 hx).1)

example : (let p : List Op := [.newNode [] [], .newNode [] [], .newNode [] [], .detachRemove 2]
    let q : List Op := [.newNode [] [], .newEdge 4 0 "e" [], .detachRemove 3, .newNode [] [], .detachRemove 1]
    Spec.ValidHistory (p ++ .newNode [] [] :: q) ∧ ListOk p ∧ (flagsAfter p).gone = true ∧
    (Spec.run p).nodes.head? = some 0 ∧ (Spec.run (p ++ .newNode [] [] :: q)).nodes = [0, 4, 6] ∧
    (run (p ++ .newNode [] [] :: q)).bind State.getNodes = some [0]) := by decide +kernel

/-- The first node created in a graph that had been emptied is enumerated for ever, also after it has been
removed. -/
theorem C01_ghost (p q : List Op) (ls : List String) (ps : Props)
    (hv : Spec.ValidHistory (p ++ .newNode ls ps :: q)) (hc : ListOk p) (hg : (flagsAfter p).gone = true)
    (he : (Spec.run p).nodes = []) (s : State) (hs : run (p ++ .newNode ls ps :: q) = some s) :
    ∃ ns, s.getNodes = some ((Spec.run p).next :: ns) := by
  obtain ⟨s1, hs1, hs2⟩ := run_split hs
  obtain ⟨hv1, hv2⟩ := Spec.validFrom_append.1 hv
  have c1 : Core s1 (Spec.run p) := Core.run hv1 hs1
  have h1 : NOk s1 (Spec.run p) (flagsAfter p) := NOk.runFrom Core.init NOk.init hv1 hc hs1
  rw [runFrom] at hs2
  split at hs2
  · cases hs2
  · rename_i s2 h2
    have c2 := c1.step hv2.1 h2
    have h3 := (h1.step c1 hv2.1 h2 (Or.inr he)).ghost (x := (Spec.run p).next) (by simp [Spec.listFlags, hg])
    exact (h3.runFrom c2 hv2.2 hs2).getNodes (Mono.init.runFrom Core.init hv hs)

example : (let p : List Op := [.newNode [] [], .detachRemove 0]
    let q : List Op := [.newNode [] [], .detachRemove 1, .newNode [] []]
    Spec.ValidHistory (p ++ .newNode [] [] :: q) ∧ ListOk p ∧ (flagsAfter p).gone = true ∧
    (Spec.run p).nodes = [] ∧ (Spec.run (p ++ .newNode [] [] :: q)).nodes = [2, 3] ∧
    (run (p ++ .newNode [] [] :: q)).bind State.getNodes = some [1, 2, 3]) := by decide +kernel

/-- `GetNodes` is right after every operation of a history exactly if the history is safe. -/
theorem C01_iff (ops : List Op) (hv : Spec.ValidHistory ops) (s : State) (hs : run ops = some s) :
    (∀ p, p <+: ops → C01_statement p) ↔ ListOk ops := by
  constructor
  · intro h
    apply Classical.byContradiction
    intro hn
    obtain ⟨p, op, q, rfl, hp, hu⟩ := Spec.first_unsafe hn
    obtain ⟨s1, hs1, hs2⟩ := run_split hs
    obtain ⟨hv1, hv2⟩ := Spec.validFrom_append.1 hv
    have c1 : Core s1 (Spec.run p) := Core.run hv1 hs1
    have h1 : NOk s1 (Spec.run p) (flagsAfter p) := NOk.runFrom Core.init NOk.init hv1 hp hs1
    rw [runFrom] at hs2
    split at hs2
    · cases hs2
    · rename_i s2 h2
      have c2 : Core s2 ((Spec.run p).step op) := c1.step hv2.1 h2
      have hr : run (p ++ [op]) = some s2 := by
        unfold run at hs1 ⊢
        rw [runFrom_append, hs1]; simp [runFrom, h2]
      have hpre : (p ++ [op]) <+: p ++ op :: q := ⟨q, by simp⟩
      have hright := h _ hpre s2 hr
      have hσ : Spec.run (p ++ [op]) = (Spec.run p).step op := by rw [Spec.run_append]; rfl
      rw [hσ] at hright
      have hv3 : Spec.ValidHistory (p ++ [op]) := Spec.validFrom_append.2 ⟨hv1, hv2.1, trivial⟩
      cases op with
      | newNode ls ps =>
        have hu' : ¬ ((flagsAfter p).gone = false ∨ (Spec.run p).nodes = []) := hu
        obtain ⟨hg, hne⟩ := not_or.1 hu'
        have hg : (flagsAfter p).gone = true := by simpa using hg
        cases hm : (Spec.run p).nodes.head? with
        | none => exact hne (by simpa using hm)
        | some m =>
          have := C01_lost p [] ls ps hv3 hp hg m hm (by
            rw [hσ]; simp [Spec.step, List.mem_of_head? hm]) s2 hr
          rw [this, hσ] at hright
          have hin : (Spec.run p).next ∈ ((Spec.run p).step (.newNode ls ps)).nodes := by simp [Spec.step]
          rw [← Option.some.inj hright] at hin
          simp at hin
      | detachRemove n =>
        have hu' : ¬ ((flagsAfter p).restart ≠ some n) := hu
        have hr1 : (flagsAfter p).restart = some n := by simpa using hu'
        obtain ⟨ns, hg⟩ := ((h1.ghost hr1).step c1 hv2.1 h2).getNodes (Mono.init.runFrom Core.init hv3 hr)
        rw [hg] at hright
        have hin : n ∈ ((Spec.run p).step (.detachRemove n)).nodes := by
          rw [← Option.some.inj hright]; simp
        simp [Spec.step] at hin
      | _ => exact hu trivial
  · rintro h p ⟨q, rfl⟩
    exact C01_safe_partial p (Spec.validFrom_append.1 hv).1 (Spec.listOkFrom_append.1 h).1

example : Spec.ValidHistory refillOps ∧ ListOk refillOps ∧ ¬ ListOk (refillOps ++ [.newNode [] []]) ∧
    ¬ ListOk (refillOps ++ [.detachRemove 2]) ∧ (run (refillOps ++ [.newNode [] []])).isSome ∧
    (run (refillOps ++ [.detachRemove 2])).isSome := by decide +kernel

end LPG
