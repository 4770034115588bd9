import Verif.Props.C01Exact
import Verif.Proofs.Listing
/-!
# C01: what `GetNodes` yields after any history

`Listing` (`Verif.Spec.Listing`) speaks about the creations and removals of a history only. It says which nodes are
enumerated, in which order, after every history, also those for which the property fails.
-/
namespace LPG

theorem shows_run {ops : List Op} (hv : Spec.ValidHistory ops) {s : State} (hs : run ops = some s) :
    NShows s.nptr s.allNodes (Spec.run ops).nodes (Spec.run ops).next (listingAfter ops) :=
  NShows.runFrom Core.init NShows.init hv hs

/-- After every history `GetNodes` yields the nodes that the history shows, in that order. -/
theorem C01_listing (ops : List Op) (hv : Spec.ValidHistory ops) (s : State) (hs : run ops = some s) :
    s.getNodes = some (listingAfter ops).nodes :=
  (shows_run hv hs).getNodes (Core.run hv hs)

/-- Every node of the graph is either shown or lost, and never both; the removed nodes that are shown are not in
the graph; and the enumeration is without duplicates, oldest first. -/
theorem C01_shown (ops : List Op) (hv : Spec.ValidHistory ops) (s : State) (hs : run ops = some s) :
    (∀ n ∈ (Spec.run ops).nodes, n ∈ (listingAfter ops).nodes ↔ ¬ ∃ c ∈ (listingAfter ops).lost, n ∈ c) ∧
    (∀ n ∈ (listingAfter ops).nodes, n ∈ (Spec.run ops).nodes ↔ n ∉ (listingAfter ops).removed) ∧
    (listingAfter ops).nodes.Pairwise (· < ·) := by
  have h := shows_run hv hs
  have c := Core.run hv hs
  have hnd := List.nodup_append.1 (h.live.nodup_iff.2 c.nNodup)
  refine ⟨fun n hn => ⟨?_, ?_⟩, fun n hn => ⟨fun h1 h2 => (h.gone n h2).1 h1, fun h1 => ?_⟩, ?_⟩
  · rintro h1 ⟨d, hd, h2⟩
    rcases List.mem_append.1 h1 with h1 | h1
    · exact (h.gone n h1).1 hn
    · exact hnd.2.2 n h1 n (by simp; exact ⟨d, hd, h2⟩) rfl
  · intro h1
    rcases List.mem_append.1 (h.live.symm.subset hn) with h2 | h2
    · exact List.mem_append_right _ h2
    · exact absurd (by simpa using h2) h1
  · rcases List.mem_append.1 hn with h2 | h2
    · exact absurd h2 h1
    · exact h.live.subset (by simp [h2])
  · have hm := Mono.init.runFrom Core.init hv hs
    have hg := C01_listing ops hv s hs
    obtain ⟨xs, h1, h2, _⟩ := hm.getNodes
    rw [hg] at h1
    cases h1
    exact h2

/-- `GetNodes` is right after a history, whatever it was in between, exactly if the history shows no removed node
and no node is lost. -/
theorem C01_right_iff (ops : List Op) (hv : Spec.ValidHistory ops) (s : State) (hs : run ops = some s) :
    C01_statement ops ↔ (listingAfter ops).removed = [] ∧ ∀ c ∈ (listingAfter ops).lost, c = [] := by
  have h := shows_run hv hs
  have c := Core.run hv hs
  have hg := C01_listing ops hv s hs
  obtain ⟨h1, h2, h3⟩ := C01_shown ops hv s hs
  constructor
  · intro hc
    have he : (listingAfter ops).nodes = (Spec.run ops).nodes := by
      have := hc s hs
      rw [hg] at this
      simpa using this
    refine ⟨List.eq_nil_iff_forall_not_mem.2 (fun n hn => ?_), fun d hd => List.eq_nil_iff_forall_not_mem.2 (fun n hn => ?_)⟩
    · exact (h.gone n hn).1 (he ▸ List.mem_append_left _ hn)
    · have hm : n ∈ (Spec.run ops).nodes := h.live.subset (by simp; exact .inr ⟨d, hd, hn⟩)
      exact (h1 n hm).1 (he ▸ hm) ⟨d, hd, hn⟩
  · rintro ⟨hr, hl⟩ s' hs'
    rw [hs] at hs'
    cases hs'
    rw [hg]
    have hf : (listingAfter ops).lost.flatten = [] := by simpa using hl
    have hp := h.live
    rw [hf, List.append_nil] at hp
    have he : (listingAfter ops).nodes = (listingAfter ops).shown := by simp [Listing.nodes, hr]
    rw [he] at h3 ⊢
    have hso := (Spec.Sorted.runFrom (ops := ops) Spec.Sorted.init).sorted
    exact congrArg some (hp.eq_of_pairwise (fun a b _ _ h1 h2 => absurd h1 (Nat.lt_asymm h2)) h3 hso)

/-- a history with lost nodes and removed nodes that are shown -/
def tangledOps : List Op :=
  [.newNode [] [], .newNode [] [], .detachRemove 1, .newNode [] [], .detachRemove 0, .newNode [] [], .newNode [] [],
   .newNode [] [], .newNode [] [], .detachRemove 6, .newNode [] [], .newEdge 4 7 "e" [], .detachRemove 3,
   .detachRemove 2, .newNode [] [], .newNode [] []]

example : Spec.ValidHistory tangledOps ∧ (Spec.run tangledOps).nodes = [4, 5, 7, 9, 10] ∧
    (run tangledOps).bind State.getNodes = some [3, 4, 5] ∧ (listingAfter tangledOps).removed = [3] ∧
    (listingAfter tangledOps).shown = [4, 5] ∧ (listingAfter tangledOps).lost = [[9, 10], [7], [], []] := by
  decide +kernel

/-- the enumeration is wrong for a while and right again -/
def mendedOps : List Op :=
  [.newNode [] [], .newNode [] [], .detachRemove 1, .newNode [] [], .newNode [] [], .detachRemove 2, .detachRemove 3]

example : Spec.ValidHistory mendedOps ∧ ¬ ListOk mendedOps ∧ (listingAfter mendedOps).removed = [] ∧
    (∀ c ∈ (listingAfter mendedOps).lost, c = []) ∧ (run mendedOps).bind State.getNodes = some [0] := by
  decide +kernel

end LPG
