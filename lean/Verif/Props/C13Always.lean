import Verif.Props.C63
import Verif.Props.C50All
import Verif.Proofs.EdgeTrack
/-!
# C13 and C63 for edges: what an index of edges has after every history

No condition on the history: edges may have been removed that were filed under a label they no longer had, before the
index was created or after. `Spec.etracksFrom` (`Verif.Spec.EdgeTrack`) speaks about the operations only.
-/
namespace LPG
open State

theorem run_addEdgeIndex {pre post : List Op} {k : String} {t : IndexType} {s : State}
    (hv : Spec.ValidHistory (pre ++ .addEdgeIndex k t :: post)) (hk : ¬ EdgeIndexed pre k)
    (hs : run (pre ++ .addEdgeIndex k t :: post) = some s) :
    ∃ s0 es, run pre = some s0 ∧ s0.getEdges = some es ∧
      ETracks k (dups (fun e => (s0.edgeProperty e k).isSome) [] es)
        ((Spec.run pre).etracksFrom k (es.filter (fun e => (s0.edgeProperty e k).isSome)) post) s ∧
      s.edgeIx.kind k = some t := by
  obtain ⟨s0, hs0, hs1⟩ := run_split hs
  obtain ⟨hv0, hv1⟩ := Spec.validFrom_append.1 hv
  have c0 : Core s0 (Spec.run pre) := Core.run hv0 hs0
  have hnone : AMap.get s0.edgeIx k = none := Classical.byContradiction fun h => by
    rcases edgeIx_only (s := State.new) hs0 h with h | h
    · simp [State.new, AMap.get] at h
    · exact hk h
  have hkind := edgeIx_type (s := s0) (k := k) hs1
  simp only [Indexes.kind, hnone, edgeIndexType, if_true, Option.map_none, Option.none_or] at hkind
  rw [runFrom] at hs1
  split at hs1
  · cases hs1
  · rename_i s1 hstep
    have c1 : Core s1 (Spec.run pre) := c0.step hv1.1 hstep
    simp only [LPG.step, State.addEdgeIndex, hnone] at hstep
    split at hstep
    · cases hstep
    · rename_i es h1
      split at hstep
      · cases hstep
      · rename_i ix hix
        cases hstep
        refine ⟨s0, es, hs0, h1, ETracks.runFrom c1 ?_ hv1.2 hs1, hkind⟩
        have a := DRep.addObjects (T := []) (D := []) (key := k) (props := s0.eProps)
          ((DRep.new t).congr (by simp)) (by simp) hix
        rw [List.nil_append, List.nil_append] at a
        exact ⟨⟨ix, by simp [AMap.get_set], a⟩, fun e he => (List.mem_filter.1 he).2, by
          have := edgeFresh_run hv0 hs0
          exact this⟩

/-- C13, exactly, for indexed properties and every history: a lookup yields once each of the edges that `GetEdges` yielded
when the index was created and that had the property then, and of the edges that got the property since, without those
that lost it, or whose node was detached, since (`Op.etracks`; `Edge.Remove` takes no edge out). In addition, a hash
index lists for ever, whatever happens to the edge, each repetition in what `GetEdges` yielded at its creation. -/
theorem C13_tracks (pre post : List Op) (k : String) (t : IndexType) (hk : ¬ EdgeIndexed pre k)
    (hv : Spec.ValidHistory (pre ++ .addEdgeIndex k t :: post)) (s : State)
    (hs : run (pre ++ .addEdgeIndex k t :: post) = some s) :
    ∃ s0 es xs, run pre = some s0 ∧ s0.getEdges = some es ∧ s.getEdgesWithProperty k = some xs ∧
      ∀ e, xs.count e =
        (if e ∈ (Spec.run pre).etracksFrom k (es.filter (fun e => (s0.edgeProperty e k).isSome)) post then 1 else 0) +
        (if t = .hash then (es.filter (fun e => (s0.edgeProperty e k).isSome)).count e - 1 else 0) := by
  obtain ⟨s0, es, h1, h2, ⟨⟨ix, hg, r⟩, hhas, _⟩, hkind⟩ := run_addEdgeIndex hv hk hs
  refine ⟨s0, es, ix.valueItr, h1, h2, by simp [State.getEdgesWithProperty, hg], fun e => ?_⟩
  rw [r.count]
  congr 1
  · by_cases he : e ∈ (Spec.run pre).etracksFrom k (es.filter (fun e => (s0.edgeProperty e k).isSome)) post
    · rw [if_pos he, if_pos he, if_pos (hhas e he)]
    · rw [if_neg he, if_neg he]; rfl
  · simp only [Indexes.kind, hg, Option.map_some, Option.some.injEq] at hkind
    cases ix with
    | btree t' => subst hkind; rfl
    | hash t' => subst hkind; simp [Index.kind, count_dups]

/-- the hash index on `q` lists the edge 7 twice from its creation; one of them stays when the property is removed, and when
it is set again there are two -/
example : (let pre : List Op := twiceOps
    let post : List Op := [.removeEdgeProp 7 "q", .newEdge 0 0 "D" [("q", .int 1)], .setEdgeProp 5 "q" (.int 2),
      .removeEdge 8]
    Spec.ValidHistory (pre ++ .addEdgeIndex "q" .hash :: post) ∧
    (run pre).bind State.getEdges = some [1, 7, 5, 7] ∧
    (run (pre ++ .addEdgeIndex "q" .hash :: post)).bind (fun s => s.getEdgesWithProperty "q") = some [7, 8, 5] ∧
    (Spec.run pre).etracksFrom "q" [7, 7] post = [8, 5] ∧
    (run (pre ++ .addEdgeIndex "q" .hash :: post ++ [.setEdgeProp 7 "q" (.int 3)])).bind
      (fun s => s.getEdgesWithProperty "q") = some [7, 8, 5, 7]) := by decide +kernel

example : ¬ EdgeIndexed twiceOps "q" := by rintro ⟨t, h⟩; simp [twiceOps] at h

/-- A btree never lists an edge twice. -/
theorem C13_btree_nodup (pre post : List Op) (k : String) (hk : ¬ EdgeIndexed pre k)
    (hv : Spec.ValidHistory (pre ++ .addEdgeIndex k .btree :: post)) (s : State)
    (hs : run (pre ++ .addEdgeIndex k .btree :: post) = some s) :
    ∃ xs, s.getEdgesWithProperty k = some xs ∧ xs.Nodup := by
  obtain ⟨s0, es, xs, _, _, h3, h4⟩ := C13_tracks pre post k .btree hk hv s hs
  refine ⟨xs, h3, List.nodup_iff_count.2 fun e => ?_⟩
  rw [h4 e]
  simp only [reduceCtorEq, if_false, Nat.add_zero]
  split <;> omega

/-- C63 for edges, exactly, for every history: a lookup by value in a hash index yields the edges of `Op.etracks` with that
value, up to one wrapper on either side, each once. -/
theorem C63_hash_edges_tracks (pre post : List Op) (k : String) (hk : ¬ EdgeIndexed pre k)
    (hv : Spec.ValidHistory (pre ++ .addEdgeIndex k .hash :: post)) (s : State)
    (hs : run (pre ++ .addEdgeIndex k .hash :: post) = some s) (v : Value)
    (r : Option (List Nat × Int)) (hf : s.edgesByValue k v = some r) :
    ∃ s0 es xs, run pre = some s0 ∧ s0.getEdges = some es ∧ r = some (xs, (xs.length : Int)) ∧ xs.Nodup ∧
      ∀ e, e ∈ xs ↔ e ∈ (Spec.run pre).etracksFrom k (es.filter (fun e => (s0.edgeProperty e k).isSome)) post ∧
        ∃ w, s.edgeProperty e k = some w ∧ bareValue w = bareValue v := by
  obtain ⟨s0, es, h1, h2, ⟨⟨ix, hg, rep⟩, hhas, _⟩, hkind⟩ := run_addEdgeIndex hv hk hs
  obtain ⟨t, ht⟩ := kind_hash hkind
  rw [ht] at hg; cases hg
  obtain ⟨O, rep, _⟩ := rep
  simp only [State.edgesByValue, ht, Option.map_eq_some_iff] at hf
  obtain ⟨⟨xs, m⟩, hf, rfl⟩ := hf
  have hf := without_find rep (show t.find v = some (xs, m) from hf)
  obtain ⟨rfl, h3, h4⟩ := hash_find (t := t.without O) (P := fun e => (s.eProps e).get k) rep (by
    intro x w hx
    split at hx
    · exact hx
    · cases hx) hf
  refine ⟨s0, es, xs, h1, h2, rfl, h3, fun e => ?_⟩
  rw [h4]
  have hm : e ∈ (t.without O).valueItr ↔ _ := rep.mem e
  rw [hm]
  constructor
  · rintro ⟨⟨w, hw⟩, h⟩
    split at hw
    · rename_i he; exact ⟨he, h⟩
    · cases hw
  · rintro ⟨he, h⟩
    refine ⟨?_, h⟩
    rw [if_pos he]
    exact Option.isSome_iff_exists.1 (hhas e he)

/-- … and one in a btree yields edges of `Op.etracks` only, none whose value compares otherwise, and all whose value compares
equal. -/
theorem C63_btree_edges_tracks (pre post : List Op) (k : String) (hk : ¬ EdgeIndexed pre k)
    (hv : Spec.ValidHistory (pre ++ .addEdgeIndex k .btree :: post)) (s : State)
    (hs : run (pre ++ .addEdgeIndex k .btree :: post) = some s) (v : Value)
    (r : Option (List Nat × Int)) (hf : s.edgesByValue k v = some r) :
    ∃ s0 es xs, run pre = some s0 ∧ s0.getEdges = some es ∧ r = some (xs, (xs.length : Int)) ∧ xs.Nodup ∧
      ∀ e, (e ∈ xs → e ∈ (Spec.run pre).etracksFrom k (es.filter (fun e => (s0.edgeProperty e k).isSome)) post ∧
          ∃ w, s.edgeProperty e k = some w ∧ ∀ c, cmp v w = some c → c = 0) ∧
        (e ∈ (Spec.run pre).etracksFrom k (es.filter (fun e => (s0.edgeProperty e k).isSome)) post →
          ∀ w, s.edgeProperty e k = some w → cmp v w = some 0 → e ∈ xs) := by
  obtain ⟨s0, es, h1, h2, ⟨⟨ix, hg, rep⟩, hhas, _⟩, hkind⟩ := run_addEdgeIndex hv hk hs
  obtain ⟨t, ht⟩ := kind_btree hkind
  rw [ht] at hg; cases hg
  have rep : BRep t _ := rep
  simp only [State.edgesByValue, ht, Option.map_eq_some_iff] at hf
  obtain ⟨⟨xs, m⟩, hf, rfl⟩ := hf
  obtain ⟨rfl, h3, h4, h5⟩ := btree_find (P := fun e => (s.eProps e).get k) rep (by
    intro x w hx
    split at hx
    · exact hx
    · cases hx) hf
  refine ⟨s0, es, xs, h1, h2, rfl, h3, fun e => ⟨fun he => ?_, fun he w hw hc => ?_⟩⟩
  · obtain ⟨g1, g2⟩ := h4 e he
    refine ⟨?_, g2⟩
    obtain ⟨w, hw⟩ := (rep.mem e).1 g1
    split at hw
    · assumption
    · cases hw
  · refine h5 e ((rep.mem e).2 ?_) w hw hc
    rw [if_pos he]
    exact Option.isSome_iff_exists.1 (hhas e he)

/-- lookups in the history of the example above: the stray copy of 7 is not found, the removed edge 8 is -/
example : (let ops : List Op := twiceOps ++ .addEdgeIndex "q" .hash :: [.removeEdgeProp 7 "q",
      .newEdge 0 0 "D" [("q", .int 1)], .setEdgeProp 5 "q" (.int 2), .removeEdge 8]
    Spec.ValidHistory ops ∧
    (run ops).bind (fun s => s.edgesByValue "q" (.int 7)) = some (some ([], 0)) ∧
    (run ops).bind (fun s => s.edgesByValue "q" (.int 1)) = some (some ([8], 1))) := by decide +kernel

example : (let ops : List Op := twiceOps ++ .addEdgeIndex "q" .btree :: [.newEdge 0 0 "D" [("q", .int 7)], .removeEdge 8]
    Spec.ValidHistory ops ∧
    (run ops).bind (fun s => s.getEdgesWithProperty "q") = some [7, 8] ∧
    (run ops).bind (fun s => s.edgesByValue "q" (.int 7)) = some (some ([7, 8], 2))) := by decide +kernel

end LPG
