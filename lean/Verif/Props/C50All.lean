import Verif.Props.C49C50
import Verif.Props.C13Exact
import Verif.Props.C17C18
import Verif.Proofs.IndexTrack
import Verif.Proofs.IndexKind
/-!
# C12, C18, C50: what holds after every history

No condition on the history: the list of nodes may have lost nodes, edges may have been relabeled and removed.
-/
namespace LPG
open State

/-! ## C18 -/

/-- The comparison is the restriction of a total preorder: there is one linear order into which all values are mapped,
and wherever the comparison is defined its result is the comparison there. -/
theorem C18_extends : ∃ f : Value → List Tok, ∀ a b r, cmp a b = some r →
    (r = 0 ↔ f a = f b) ∧ (r = -1 ↔ f a < f b) ∧ (r = 1 ↔ f b < f a) :=
  ⟨ser, fun _ _ _ h => cmp_ser h⟩

/-- In particular there are no cycles, also not through values that are not comparable with each other: along a chain
of values, each not above the next, the last is not below the first. -/
theorem C18_acyclic (l : List Value) (a b : Value)
    (h : (a :: l ++ [b]).IsChain (fun x y => ∃ r, cmp x y = some r ∧ r ≤ 0)) (r : Int) (hr : cmp a b = some r) :
    r ≤ 0 := by
  obtain ⟨f, hf⟩ := C18_extends
  have hle : ∀ x y, (∃ r, cmp x y = some r ∧ r ≤ 0) → f x ≤ f y := by
    rintro x y ⟨r, h1, h2⟩
    rcases C18_range _ _ _ h1 with rfl | rfl | rfl
    · exact le_of_lt ((hf _ _ _ h1).2.1.1 rfl)
    · exact le_of_eq ((hf _ _ _ h1).1.1 rfl)
    · omega
  have key : ∀ (l : List Value) (a : Value), (a :: l ++ [b]).IsChain (fun x y => ∃ r, cmp x y = some r ∧ r ≤ 0) →
      f a ≤ f b := by
    intro l
    induction l with
    | nil => intro a h; simp at h; exact hle a b h
    | cons x l ih =>
      intro a h
      rw [List.cons_append, List.cons_append, List.isChain_cons_cons] at h
      exact le_trans (hle a x h.1) (ih x h.2)
  have h1 := key l a h
  rcases C18_range _ _ _ hr with rfl | rfl | rfl
  · omega
  · omega
  · exact absurd ((hf _ _ _ hr).2.2.1 rfl) (not_lt_of_ge h1)

example : ([Value.strs [], .list [], .ints [], .native (.list [.int 1])]).IsChain
    (fun x y => ∃ r, cmp x y = some r ∧ r ≤ 0) ∧ cmp (.strs []) (.ints []) = none ∧
    cmp (.strs []) (.native (.list [.int 1])) = some (-1) := by
  refine ⟨?_, by decide +kernel, by decide +kernel⟩
  simp only [List.isChain_cons_cons]
  exact ⟨⟨0, by decide +kernel, by decide⟩, ⟨0, by decide +kernel, by decide⟩, ⟨-1, by decide +kernel, by decide⟩, .singleton _⟩

/-! ## C12 -/

theorem run_addNodeIndex {pre post : List Op} {k : String} {t : IndexType} {s : State}
    (hv : Spec.ValidHistory (pre ++ .addNodeIndex k t :: post)) (hk : ¬ NodeIndexed pre k)
    (hs : run (pre ++ .addNodeIndex k t :: post) = some s) :
    ∃ s0 ns, run pre = some s0 ∧ s0.getNodes = some ns ∧
      Tracks k ((Spec.run pre).tracksFrom k (ns.filter (fun n => (s0.nodeProperty n k).isSome)) post) s := by
  obtain ⟨s0, hs0, hs1⟩ := run_split hs
  obtain ⟨hv0, hv1⟩ := Spec.validFrom_append.1 hv
  have c0 : Core s0 (Spec.run pre) := Core.run hv0 hs0
  obtain ⟨ns, h1, h2, h3⟩ := (Mono.init.runFrom Core.init hv0 hs0).getNodes
  have hnone : AMap.get s0.nodeIx k = none := Classical.byContradiction fun h => by
    rcases nodeIx_only (s := State.new) hs0 h with h | h
    · simp [State.new, AMap.get] at h
    · exact hk h
  refine ⟨s0, ns, hs0, h1, ?_⟩
  rw [runFrom] at hs1
  split at hs1
  · cases hs1
  · rename_i s1 hstep
    have c1 : Core s1 (Spec.run pre) := c0.step hv1.1 hstep
    refine Tracks.runFrom c1 ?_ hv1.2 hs1
    simp only [LPG.step, State.addNodeIndex, hnone, h1] at hstep
    split at hstep
    · cases hstep
    · rename_i ix hix
      cases hstep
      have hnd : ns.Nodup := h2.imp (fun h => Nat.ne_of_lt h)
      have a := (IRep.new t).addObjects hnd (by simp) hix
      refine ⟨⟨ix, by simp [AMap.get_set], a.congr ?_⟩, hnd.filter _, ?_⟩
      · intro x
        simp only [List.mem_filter, State.nodeProperty]
        by_cases hx : x ∈ ns
        · cases hp : AMap.get (s0.nProps x) k <;> simp [hx, hp]
        · simp [hx]
      · intro n hn
        rw [List.mem_filter] at hn
        exact ⟨h3 n hn.1, hn.2⟩

theorem Tracks.lookup {k : String} {T : List Nat} {s : State} (h : Tracks k T s) :
    ∃ xs, s.getNodesWithProperty k = some xs ∧ xs.Perm T := by
  obtain ⟨⟨ix, hg, r⟩, hnd, hhas⟩ := h
  refine ⟨ix.valueItr, by simp [State.getNodesWithProperty, hg], ?_⟩
  rw [List.perm_ext_iff_of_nodup r.ids hnd]
  intro n
  rw [r.mem]
  constructor
  · rintro ⟨v, hv⟩
    split at hv
    · assumption
    · cases hv
  · intro hn
    rw [if_pos hn]
    exact Option.isSome_iff_exists.1 (hhas n hn).2

/-- C12, exactly, for indexed properties and every history: a lookup yields the nodes that `GetNodes` yielded when the
index was created and that had the property then, and the nodes that got the property since, without those that
lost it or were removed since (`Op.tracks`). -/
theorem C12_tracks (pre post : List Op) (k : String) (t : IndexType) (hk : ¬ NodeIndexed pre k)
    (hv : Spec.ValidHistory (pre ++ .addNodeIndex k t :: post)) (s : State)
    (hs : run (pre ++ .addNodeIndex k t :: post) = some s) :
    ∃ s0 ns xs, run pre = some s0 ∧ s0.getNodes = some ns ∧ s.getNodesWithProperty k = some xs ∧
      xs.Perm ((Spec.run pre).tracksFrom k (ns.filter (fun n => (s0.nodeProperty n k).isSome)) post) := by
  obtain ⟨s0, ns, h1, h2, h3⟩ := run_addNodeIndex hv hk hs
  obtain ⟨xs, h4, h5⟩ := h3.lookup
  exact ⟨s0, ns, xs, h1, h2, h4, h5⟩

/-- a lost node gets into the index when the property is set; another one stays out -/
example : (let pre : List Op := [.newNode [] [("x", .int 1)], .newNode [] [], .detachRemove 1,
      .newNode [] [("x", .int 2)], .newNode [] [("x", .int 3)]]
    let post : List Op := [.setNodeProp 2 "x" (.int 0), .newNode [] [("x", .int 4)], .setLabels 3 ["A"]]
    Spec.ValidHistory (pre ++ .addNodeIndex "x" .btree :: post) ∧
    (run pre).bind State.getNodes = some [0] ∧
    (run (pre ++ .addNodeIndex "x" .btree :: post)).bind (fun s => s.getNodesWithProperty "x") = some [2, 0, 4] ∧
    (Spec.run pre).tracksFrom "x" [0] post = [0, 2, 4]) := by decide +kernel

/-- After every history, whether or not there is an index: a lookup yields no node twice, and only nodes that have the
property. -/
theorem C12_sound (ops : List Op) (hv : Spec.ValidHistory ops) (k : String) (s : State) (hs : run ops = some s) :
    ∃ ns, s.getNodesWithProperty k = some ns ∧ ns.Nodup ∧ ∀ n ∈ ns, (s.nodeProperty n k).isSome := by
  cases hg : AMap.get s.nodeIx k with
  | none =>
    obtain ⟨ns, h1, h2, _⟩ := (Mono.init.runFrom Core.init hv hs).getNodes
    refine ⟨_, by simp only [State.getNodesWithProperty, hg, h1, Option.map_some]; rfl, ?_, ?_⟩
    · have hnd : ns.Nodup := h2.imp (fun h => Nat.ne_of_lt h)
      exact hnd.filter _
    · intro n hn; exact (List.mem_filter.1 hn).2
  | some ix =>
    obtain ⟨val, r, hval⟩ := nodeSub_run hv hs k ix hg
    refine ⟨ix.valueItr, by simp [State.getNodesWithProperty, hg], r.ids, ?_⟩
    intro n hn
    obtain ⟨v, hv⟩ := (r.mem n).1 hn
    have h1 : AMap.get (s.nProps n) k = some v := hval n v hv
    simp only [State.nodeProperty]
    rw [h1]; rfl

/-! ## C50 -/

theorem ser_sorted {v w : Value} (h : ser v ≤ ser w) (r : Int) (hr : cmp v w = some r) : r ≤ 0 := by
  rcases cmp_range _ _ _ hr with rfl | rfl | rfl
  · omega
  · omega
  · exact absurd ((cmp_ser hr).2.2.1 rfl) (not_lt_of_ge h)

theorem kind_btree {ixs : Indexes} {k : String} (h : ixs.kind k = some .btree) :
    ∃ t, AMap.get ixs k = some (.btree t) := by
  simp only [Indexes.kind, Option.map_eq_some_iff] at h
  obtain ⟨ix, h1, h2⟩ := h
  cases ix with
  | btree t => exact ⟨t, h1⟩
  | hash t => cases h2

/-- C50: after every history, if the first index asked for on `k` is a btree, the lookup yields the nodes (each once)
with non-decreasing values of the property. (`∀ r`: some values in one tree are not comparable with each other, such
as an empty `[]string` and an empty `[]int`.) -/
theorem C50 (ops : List Op) (hv : Spec.ValidHistory ops) (k : String) (hk : nodeIndexType ops k = some .btree)
    (s : State) (hs : run ops = some s) :
    ∃ ns, s.getNodesWithProperty k = some ns ∧ ns.Nodup ∧
      ns.Pairwise (fun a b => ∃ v w, s.nodeProperty a k = some v ∧ s.nodeProperty b k = some w ∧
        ∀ r, cmp v w = some r → r ≤ 0) := by
  obtain ⟨t, hg⟩ := kind_btree ((nodeIx_type_run hs k).trans hk)
  obtain ⟨val, r, hval⟩ := nodeSub_run hv hs k _ hg
  refine ⟨SetTree.valueItr t, by simp [State.getNodesWithProperty, hg, Index.valueItr], BRep.ids r, ?_⟩
  refine (BRep.ordered_ser r).imp ?_
  rintro a b ⟨v, w, h1, h2, h3⟩
  exact ⟨v, w, hval a v h1, hval b w h2, ser_sorted h3⟩

/-- The same for edges. -/
theorem C50_edges (ops : List Op) (hv : Spec.ValidHistory ops) (k : String) (hk : edgeIndexType ops k = some .btree)
    (s : State) (hs : run ops = some s) :
    ∃ es, s.getEdgesWithProperty k = some es ∧ es.Nodup ∧
      es.Pairwise (fun a b => ∃ v w, s.edgeProperty a k = some v ∧ s.edgeProperty b k = some w ∧
        ∀ r, cmp v w = some r → r ≤ 0) := by
  obtain ⟨t, hg⟩ := kind_btree ((edgeIx_type_run hs k).trans hk)
  obtain ⟨val, r, hval⟩ := edgeSub_run hv hs k _ hg
  have r : BRep t val := r
  refine ⟨SetTree.valueItr t, by simp [State.getEdgesWithProperty, hg, Index.valueItr], r.ids, ?_⟩
  refine r.ordered_ser.imp ?_
  rintro a b ⟨v, w, h1, h2, h3⟩
  exact ⟨v, w, hval a v h1, hval b w h2, ser_sorted h3⟩

/-- lost and removed nodes; edges relabeled and removed; both indexes asked for twice -/
def messyOps : List Op :=
  [.newNode [] [("p", .int 5)], .newNode [] [("p", .int 4)], .detachRemove 1, .newNode [] [("p", .int 3)],
   .addNodeIndex "p" .btree, .addNodeIndex "p" .hash, .newNode [] [("p", .int 2)], .setNodeProp 2 "p" (.native (.int 7)),
   .newEdge 0 3 "A" [("q", .str "c")], .newEdge 0 3 "A" [("q", .str "b")], .setEdgeLabel 4 "B", .removeEdge 4,
   .addEdgeIndex "q" .btree, .newEdge 2 3 "B" [("q", .str "a")], .removeEdge 6]

example : Spec.ValidHistory messyOps ∧ ¬ ListOk messyOps ∧ ¬ FiledOk messyOps ∧
    nodeIndexType messyOps "p" = some .btree ∧ edgeIndexType messyOps "q" = some .btree ∧
    (run messyOps).bind (fun s => s.getNodesWithProperty "p") = some [3, 0, 2] ∧
    (run messyOps).bind (fun s => s.getEdgesWithProperty "q") = some [6, 5, 4] := by decide +kernel

end LPG
