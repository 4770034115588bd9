import Verif.Proofs.RecoverSub
import Verif.Props.C63
import Verif.Props.C69
/-!
# C70: what the indexes on nodes answer a program that recovers from their panics
-/
namespace LPG
open State

theorem Reached.nodeSub {s : State} {ops : List Op} (h : Reached s ops) : IxsSub TryRep s.nodeIx s.nmem := by
  induction h with
  | new => intro k ix hk; cases hk
  | @call s s' ops eff op b o h0 hv hs _ _ ih =>
    obtain ⟨hvh, hr⟩ := C68_history h0
    have hm : Mono s.bare.nptr s.bare.allNodes s.bare.idBase := Mono.init.runFrom Core.init hvh hr
    exact tryNodeSub_step (Core.run hvh hr) hm ih hv hs

theorem nmem_prop {s : State} {k : String} {n : Nat} {v : Value} (h : s.nmem k n = some v) : s.nodeProperty n k = some v := by
  simp only [State.nmem] at h
  split at h
  · exact h
  · cases h

theorem nodeLookup_all {s : State} (hm : Mono s.nptr s.allNodes s.idBase) (hsub : IxsSub TryRep s.nodeIx s.nmem) (k : String) :
    ∃ all, s.getNodesWithProperty k = some all ∧ all.Nodup ∧ ∀ n ∈ all, ∃ v, s.nodeProperty n k = some v := by
  cases hg : AMap.get s.nodeIx k with
  | none =>
    obtain ⟨ns, h1, h2, h3⟩ := hm.getNodes
    have h1 : s.getNodes = some ns := h1
    refine ⟨ns.filter (fun n => (s.nodeProperty n k).isSome), by simp [State.getNodesWithProperty, hg, h1], ?_, ?_⟩
    · exact (h2.imp (fun h => Nat.ne_of_lt h)).filter _
    · intro n hn
      exact Option.isSome_iff_exists.1 (List.mem_filter.1 hn).2
  | some ix =>
    obtain ⟨val, h1, h2⟩ := hsub k ix hg
    refine ⟨ix.valueItr, by simp [State.getNodesWithProperty, hg], ?_⟩
    cases ix with
    | btree t =>
      have h1 : BRep t val := h1
      refine ⟨h1.ids, fun n hn => ?_⟩
      obtain ⟨v, hv⟩ := (h1.mem n).1 hn
      exact ⟨v, nmem_prop (h2 n v hv)⟩
    | hash t =>
      obtain ⟨h3, h4⟩ := ORep.mem h1
      refine ⟨h3, fun n hn => ?_⟩
      obtain ⟨v, hv⟩ := h4 n hn
      exact ⟨v, nmem_prop (h2 n v hv)⟩

theorem nodeLookup_hash {s : State} (hsub : IxsSub TryRep s.nodeIx s.nmem) {k : String} {t : HashIx}
    (hg : AMap.get s.nodeIx k = some (.hash t)) {v : Value} {r : Option (List Nat × Int)} (hf : s.nodesByValue k v = some r) :
    ∃ all xs, s.getNodesWithProperty k = some all ∧ r = some (xs, (xs.length : Int)) ∧ xs.Nodup ∧
      ∀ n, n ∈ xs ↔ n ∈ all ∧ ∃ w, s.nodeProperty n k = some w ∧ bareValue w = bareValue v := by
  obtain ⟨val, h1, h2⟩ := hsub k _ hg
  have h1 : ORep t val := h1
  simp only [State.nodesByValue, hg, Option.map_eq_some_iff] at hf
  obtain ⟨⟨xs, m⟩, hf, rfl⟩ := hf
  have hf : t.find v = some (xs, m) := hf
  obtain ⟨h3, rfl, h4⟩ := h1.find hf
  refine ⟨t.valueItr, xs, by simp [State.getNodesWithProperty, hg, Index.valueItr], rfl, h3, fun n => ?_⟩
  rw [h4]
  constructor
  · rintro ⟨w, hw, hk, he⟩
    refine ⟨h1.keyed_mem hw hk, w, nmem_prop (h2 n w hw), ?_⟩
    rw [bareValue_eq, bareValue_eq]
    obtain ⟨kk, hkk⟩ := Option.ne_none_iff_exists'.1 hk
    exact hkey_inj hkk (he ▸ hkk)
  · rintro ⟨hn, w, hw, hb⟩
    obtain ⟨w', hw'⟩ := h1.mem.2 n hn
    have := nmem_prop (h2 n w' hw')
    rw [hw] at this; cases this
    rw [bareValue_eq, bareValue_eq] at hb
    refine ⟨w, hw', ?_, by rw [hb]⟩
    intro hk
    rw [hb] at hk
    have hi : t.init = true := by
      cases hi : t.init with
      | true => rfl
      | false =>
        obtain ⟨O, _, _, _, _, h5⟩ := h1
        rw [h5 hi n] at hw'
        cases hw'
    rw [HashIx.find_none.2 ⟨hi, hk⟩] at hf
    cases hf

theorem nodeLookup_btree {s : State} (hsub : IxsSub TryRep s.nodeIx s.nmem) {k : String} {t : SetTree}
    (hg : AMap.get s.nodeIx k = some (.btree t)) {v : Value} {r : Option (List Nat × Int)} (hf : s.nodesByValue k v = some r) :
    ∃ all xs, s.getNodesWithProperty k = some all ∧ r = some (xs, (xs.length : Int)) ∧ xs.Nodup ∧
      (∀ n ∈ xs, n ∈ all ∧ ∃ w, s.nodeProperty n k = some w ∧ ∀ c, cmp v w = some c → c = 0) ∧
      ∀ n ∈ all, ∀ w, s.nodeProperty n k = some w → cmp v w = some 0 → n ∈ xs := by
  obtain ⟨val, rep, h2⟩ := hsub k _ hg
  simp only [State.nodesByValue, hg, Option.map_eq_some_iff] at hf
  obtain ⟨⟨xs, m⟩, h1, rfl⟩ := hf
  obtain ⟨rfl, h3, h4, h5⟩ := btree_find (P := fun n => s.nodeProperty n k) rep (fun x v hx => nmem_prop (h2 x v hx)) h1
  exact ⟨SetTree.valueItr t, xs, by simp [State.getNodesWithProperty, hg, Index.valueItr], rfl, h3, h4, h5⟩

theorem Reached.mono {s : State} {ops : List Op} (h : Reached s ops) : Mono s.nptr s.allNodes s.idBase := by
  obtain ⟨hvh, hr⟩ := C68_history h
  have hm : Mono s.bare.nptr s.bare.allNodes s.bare.idBase := Mono.init.runFrom Core.init hvh hr
  exact hm

/-- `GetNodesWithProperty` yields no node twice, and every node it yields has the property, whatever panics the program has
recovered from. -/
theorem C70 {s : State} {ops : List Op} (h : Reached s ops) (k : String) :
    ∃ all, s.getNodesWithProperty k = some all ∧ all.Nodup ∧ ∀ n ∈ all, ∃ v, s.nodeProperty n k = some v :=
  nodeLookup_all h.mono h.nodeSub k

/-- A lookup in a hash index: the nodes of the index with that value, and their number. -/
theorem C70_hash {s : State} {ops : List Op} (h : Reached s ops) {k : String} {t : HashIx}
    (hg : AMap.get s.nodeIx k = some (.hash t)) {v : Value} {r : Option (List Nat × Int)} (hf : s.nodesByValue k v = some r) :
    ∃ all xs, s.getNodesWithProperty k = some all ∧ r = some (xs, (xs.length : Int)) ∧ xs.Nodup ∧
      ∀ n, n ∈ xs ↔ n ∈ all ∧ ∃ w, s.nodeProperty n k = some w ∧ bareValue w = bareValue v :=
  nodeLookup_hash h.nodeSub hg hf

/-- A lookup in a btree index. -/
theorem C70_btree {s : State} {ops : List Op} (h : Reached s ops) {k : String} {t : SetTree}
    (hg : AMap.get s.nodeIx k = some (.btree t)) {v : Value} {r : Option (List Nat × Int)} (hf : s.nodesByValue k v = some r) :
    ∃ all xs, s.getNodesWithProperty k = some all ∧ r = some (xs, (xs.length : Int)) ∧ xs.Nodup ∧
      (∀ n ∈ xs, n ∈ all ∧ ∃ w, s.nodeProperty n k = some w ∧ ∀ c, cmp v w = some c → c = 0) ∧
      ∀ n ∈ all, ∀ w, s.nodeProperty n k = some w → cmp v w = some 0 → n ∈ xs :=
  nodeLookup_btree h.nodeSub hg hf

/-- Two indexes and a node with a value that only the second can hold. -/
def missedOps : List Op := [.addNodeIndex "a" .hash, .addNodeIndex "b" .hash, .newNode [] [("a", .ints [1]), ("b", .int 7)]]

/-- The indexes need not hold every node: the panic of the first index keeps the node out of the second. -/
theorem C70_all_false : (tryRun missedOps).bind (fun s => s.getNodes) = some [0] ∧
    (tryRun missedOps).bind (fun s => s.nodeProperty 0 "b") = some (.int 7) ∧
    (tryRun missedOps).bind (fun s => s.getNodesWithProperty "b") = some [] ∧
    (tryRun missedOps).bind (fun s => s.nodesByValue "b" (.int 7)) = some (some ([], 0)) :=
  ⟨by decide +kernel, rfl, by decide +kernel, by decide +kernel⟩

/-- They may hold nodes that were removed: `DetachAndRemove` panics in the first index and leaves the second. -/
def ghostOps : List Op := [.addNodeIndex "a" .hash, .addNodeIndex "b" .hash, .newNode [] [("a", .int 1), ("b", .int 7)],
  .setNodeProp 0 "a" (.ints [1]), .detachRemove 0]

theorem C70_live_false : (tryRun ghostOps).bind (fun s => s.nodesByValue "b" (.int 7)) = some (some ([0], 1)) ∧
    (tryRun ghostOps).bind (fun s => s.getNodes) = some [] := by decide +kernel

end LPG
