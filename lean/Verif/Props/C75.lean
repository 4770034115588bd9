import Verif.Props.C70
import Verif.Props.C74
import Verif.Proofs.RecoverEdge
/-!
# C75: what the indexes answer a program that recovers from every panic
-/
namespace LPG
open State

theorem Survived.nodeSub {s : State} {hist : List (Option Op)} (h : Survived s hist) : IxsSub TryRep s.nodeIx s.nmem := by
  induction h with
  | new => intro k ix hk; cases hk
  | @call s s' hist eff op b o h0 hv hs _ _ _ ih =>
    rcases tryStep_of_recover hs with ht | ⟨_, _, _, ⟨_, _, _, _, _, rfl⟩ | ⟨_, _, _, rfl⟩⟩
    · exact tryNodeSub_step h0.sound.core h0.sound.mono ih hv ht
    · refine ih.mono ?_
      intro k x v hx
      simp only [State.nmem] at hx ⊢
      split at hx
      · rename_i hl
        rw [if_pos (show x < s.leftNewEdge.idBase from Nat.lt_succ_of_lt hl)]
        exact hx
      · cases hx
    · exact ih

theorem Survived.edgeSub {s : State} {hist : List (Option Op)} (h : Survived s hist) : s.EdgeSub := by
  induction h with
  | new => exact ⟨(fun k ix hk => nomatch hk), fun _ _ => rfl⟩
  | @call s s' hist eff op b o h0 hv hs _ _ _ ih =>
    rcases tryStep_of_recover hs with ht | ⟨_, _, _, ⟨_, _, _, _, _, rfl⟩ | ⟨k, t, _, rfl⟩⟩
    · exact EdgeSub.tryStep h0.sound.core h0.sound.props ih hv ht
    · exact ⟨ih.1, fun x hx => ih.2 x (Nat.le_of_succ_le hx)⟩
    · refine ⟨?_, ih.2⟩
      intro k' jx hk
      have hk : AMap.get (AMap.set s.edgeIx k (Index.new t)) k' = some jx := hk
      rw [AMap.get_set] at hk
      split at hk
      · cases hk
        exact ⟨_, TRep.new t, fun _ _ h => by cases h⟩
      · exact ih.1 k' jx hk

/-- `GetNodesWithProperty` yields no node twice, and every node it yields has the property. -/
theorem C75_nodes {s : State} {hist : List (Option Op)} (h : Survived s hist) (k : String) :
    ∃ all, s.getNodesWithProperty k = some all ∧ all.Nodup ∧ ∀ n ∈ all, ∃ v, s.nodeProperty n k = some v :=
  nodeLookup_all h.sound.mono h.nodeSub k

/-- A lookup in a hash index on nodes: the nodes of the index with that value, and their number. -/
theorem C75_nodes_hash {s : State} {hist : List (Option Op)} (h : Survived s hist) {k : String} {t : HashIx}
    (hg : AMap.get s.nodeIx k = some (.hash t)) {v : Value} {r : Option (List Nat × Int)} (hf : s.nodesByValue k v = some r) :
    ∃ all xs, s.getNodesWithProperty k = some all ∧ r = some (xs, (xs.length : Int)) ∧ xs.Nodup ∧
      ∀ n, n ∈ xs ↔ n ∈ all ∧ ∃ w, s.nodeProperty n k = some w ∧ bareValue w = bareValue v :=
  nodeLookup_hash h.nodeSub hg hf

/-- A lookup in a btree index on nodes. -/
theorem C75_nodes_btree {s : State} {hist : List (Option Op)} (h : Survived s hist) {k : String} {t : SetTree}
    (hg : AMap.get s.nodeIx k = some (.btree t)) {v : Value} {r : Option (List Nat × Int)} (hf : s.nodesByValue k v = some r) :
    ∃ all xs, s.getNodesWithProperty k = some all ∧ r = some (xs, (xs.length : Int)) ∧ xs.Nodup ∧
      (∀ n ∈ xs, n ∈ all ∧ ∃ w, s.nodeProperty n k = some w ∧ ∀ c, cmp v w = some c → c = 0) ∧
      ∀ n ∈ all, ∀ w, s.nodeProperty n k = some w → cmp v w = some 0 → n ∈ xs :=
  nodeLookup_btree h.nodeSub hg hf

theorem edgeLookup_all {s : State} (hsub : IxsSub TRep s.edgeIx s.emem) {k : String} {t : SetTree}
    (hg : AMap.get s.edgeIx k = some (.btree t)) :
    ∃ all, s.getEdgesWithProperty k = some all ∧ all.Nodup ∧ ∀ e ∈ all, ∃ v, s.edgeProperty e k = some v := by
  obtain ⟨val, rep, hval⟩ := hsub k _ hg
  have rep : BRep t val := rep
  refine ⟨SetTree.valueItr t, by simp [State.getEdgesWithProperty, hg, Index.valueItr], rep.ids, fun e he => ?_⟩
  obtain ⟨v, hv⟩ := (rep.mem e).1 he
  exact ⟨v, hval e v hv⟩

theorem edgeLookup_btree {s : State} (hsub : IxsSub TRep s.edgeIx s.emem) {k : String} {t : SetTree}
    (hg : AMap.get s.edgeIx k = some (.btree t)) {v : Value} {r : Option (List Nat × Int)} (hf : s.edgesByValue k v = some r) :
    ∃ all xs, s.getEdgesWithProperty k = some all ∧ r = some (xs, (xs.length : Int)) ∧ xs.Nodup ∧
      (∀ e ∈ xs, e ∈ all ∧ ∃ w, s.edgeProperty e k = some w ∧ ∀ c, cmp v w = some c → c = 0) ∧
      ∀ e ∈ all, ∀ w, s.edgeProperty e k = some w → cmp v w = some 0 → e ∈ xs := by
  obtain ⟨val, rep, hval⟩ := hsub k _ hg
  have rep : BRep t val := rep
  simp only [State.edgesByValue, hg, Option.map_eq_some_iff] at hf
  obtain ⟨⟨xs, m⟩, h1, rfl⟩ := hf
  obtain ⟨rfl, h2, h3, h4⟩ := btree_find (P := fun e => s.edgeProperty e k) rep hval h1
  exact ⟨SetTree.valueItr t, xs, by simp [State.getEdgesWithProperty, hg, Index.valueItr], rfl, h2, h3, h4⟩

theorem edgeLookup_hash {s : State} (hsub : IxsSub TRep s.edgeIx s.emem) {k : String} {t : HashIx}
    (hg : AMap.get s.edgeIx k = some (.hash t)) {v : Value} {r : Option (List Nat × Int)} (hf : s.edgesByValue k v = some r) :
    ∃ all xs, s.getEdgesWithProperty k = some all ∧ r = some (xs, (xs.length : Int)) ∧ xs.Nodup ∧
      ∀ e ∈ xs, e ∈ all ∧ ∃ w, s.edgeProperty e k = some w ∧ bareValue w = bareValue v := by
  obtain ⟨val, ⟨O, rep, _⟩, hval⟩ := hsub k _ hg
  simp only [State.edgesByValue, hg, Option.map_eq_some_iff] at hf
  obtain ⟨⟨xs, m⟩, h1, rfl⟩ := hf
  have h1 := without_find rep (show t.find v = some (xs, m) from h1)
  obtain ⟨rfl, h2, h3⟩ := hash_find (t := t.without O) (P := fun e => s.edgeProperty e k) rep hval h1
  refine ⟨t.valueItr, xs, by simp [State.getEdgesWithProperty, hg, Index.valueItr], rfl, h2, fun e he => ?_⟩
  obtain ⟨h4, h5⟩ := (h3 e).1 he
  refine ⟨?_, h5⟩
  simp only [HashIx.valueItr, HashIx.without, List.mem_map] at h4 ⊢
  obtain ⟨p, hp, rfl⟩ := h4
  exact ⟨p, (List.mem_filter.1 hp).1, rfl⟩

/-- `GetEdgesWithProperty` of a property with a btree index yields no edge twice, and every edge it yields has the property. -/
theorem C75_edges {s : State} {hist : List (Option Op)} (h : Survived s hist) {k : String} {t : SetTree}
    (hg : AMap.get s.edgeIx k = some (.btree t)) :
    ∃ all, s.getEdgesWithProperty k = some all ∧ all.Nodup ∧ ∀ e ∈ all, ∃ v, s.edgeProperty e k = some v :=
  edgeLookup_all h.edgeSub.1 hg

/-- A lookup in a btree index on edges. -/
theorem C75_edges_btree {s : State} {hist : List (Option Op)} (h : Survived s hist) {k : String} {t : SetTree}
    (hg : AMap.get s.edgeIx k = some (.btree t)) {v : Value} {r : Option (List Nat × Int)} (hf : s.edgesByValue k v = some r) :
    ∃ all xs, s.getEdgesWithProperty k = some all ∧ r = some (xs, (xs.length : Int)) ∧ xs.Nodup ∧
      (∀ e ∈ xs, e ∈ all ∧ ∃ w, s.edgeProperty e k = some w ∧ ∀ c, cmp v w = some c → c = 0) ∧
      ∀ e ∈ all, ∀ w, s.edgeProperty e k = some w → cmp v w = some 0 → e ∈ xs :=
  edgeLookup_btree h.edgeSub.1 hg hf

/-- A lookup in a hash index on edges: it yields each edge once, its size is exact, and every edge it yields is in the index and
has the value. -/
theorem C75_edges_hash {s : State} {hist : List (Option Op)} (h : Survived s hist) {k : String} {t : HashIx}
    (hg : AMap.get s.edgeIx k = some (.hash t)) {v : Value} {r : Option (List Nat × Int)} (hf : s.edgesByValue k v = some r) :
    ∃ all xs, s.getEdgesWithProperty k = some all ∧ r = some (xs, (xs.length : Int)) ∧ xs.Nodup ∧
      ∀ e ∈ xs, e ∈ all ∧ ∃ w, s.edgeProperty e k = some w ∧ bareValue w = bareValue v :=
  edgeLookup_hash h.edgeSub.1 hg hf

/-- Two indexes on edges, an edge with a value that one of them cannot hold, a graph whose list of all edges is broken, and an
index that is created then. -/
def panickedOps : List Op :=
  [.newNode [] [], .addEdgeIndex "h" .hash, .addEdgeIndex "b" .btree, .newEdge 0 0 "A" [("b", .int 2)],
    .newEdge 0 0 "B" [("h", .ints [1]), ("b", .int 2)], .newEdge 0 0 "B" [("h", .int 1), ("b", .int 1), ("c", .int 3)],
    .setEdgeLabel 1 "B", .removeEdge 1, .setEdgeLabel 2 "A", .removeEdge 2, .newEdge 0 0 "C" [("b", .int 2)],
    .addEdgeIndex "c" .hash, .setEdgeProp 3 "b" (.int 2)]

/-- The edge 2 is not in the btree index, because the hash index panicked first; the lost edge is in no index; the index on
`c` is empty although the edge 3 has that property. The removed edge 1 is found, as C13 says. -/
theorem C75_example :
    (recoverFlags panickedOps).map (fun r => r.2) =
      some [false, false, false, false, true, false, false, false, false, false, true, true, false] ∧
    (recoverFlags panickedOps).map (fun r => r.1.edgesByValue "b" (.int 2)) = some (some (some ([1, 3], 2))) ∧
    (recoverFlags panickedOps).map (fun r => r.1.edgesByValue "h" (.int 1)) = some (some (some ([3], 1))) ∧
    (recoverFlags panickedOps).map (fun r => r.1.getEdgesWithProperty "h") = some (some [2, 3]) ∧
    (recoverFlags panickedOps).map (fun r => r.1.edgesByValue "c" (.int 3)) = some (some (some ([], 0))) ∧
    (recoverFlags panickedOps).map (fun r => r.1.getEdges) = some none :=
  ⟨by decide +kernel, by decide +kernel, by decide +kernel, by decide +kernel, by decide +kernel, by decide +kernel⟩

end LPG
