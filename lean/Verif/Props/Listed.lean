import Verif.Props.C01Listing
import Verif.Props.C05C09
import Verif.Props.C50All
import Verif.Proofs.Gone
import Verif.Proofs.Kept
import Verif.Spec.Lookup
/-!
# C12, C34, C48: exact answers after every history

`Listing` says what `GetNodes` yields after any history. The answers of the calls that go through the same
enumeration follow, also for the histories for which the properties fail.
-/
namespace LPG
open State

/-! ## C34 -/

theorem incoming_isEmpty {ops : List Op} {s : State} (hv : Spec.ValidHistory ops) (hs : run ops = some s) (n : Nat) :
    (s.nodeEdges n .incoming).map List.isEmpty =
      some (decide (∀ e ∈ (Spec.run ops).edges, (Spec.run ops).dst e ≠ n)) := by
  have c := Core.run hv hs
  by_cases hn : n ∈ (Spec.run ops).nodes
  · obtain ⟨es, h1, h2⟩ := c.inc_enum hn
    rw [h1]
    simp only [Option.map_some, Option.some.injEq]
    rw [Bool.eq_iff_iff, List.isEmpty_iff, decide_eq_true_iff]
    constructor
    · rintro rfl e he hd
      have := h2.mem_iff (a := e)
      simp [he, hd] at this
    · intro h
      apply List.Perm.eq_nil
      refine h2.trans (List.Perm.of_eq ?_)
      rw [List.filter_eq_nil_iff]
      intro e he; simpa using h e he
  · have g : Gone s (Spec.run ops) := Gone.init.runFrom Core.init hv hs
    have hd : ∀ e ∈ (Spec.run ops).edges, (Spec.run ops).dst e ≠ n := fun e he h => hn (h ▸ (c.ends e he).2)
    simp [State.nodeEdges, (g n hn).1, EdgeMap.enum, EdgeMap.empty]
    exact hd

theorem outgoing_isEmpty {ops : List Op} {s : State} (hv : Spec.ValidHistory ops) (hs : run ops = some s) (n : Nat) :
    (s.nodeEdges n .outgoing).map List.isEmpty =
      some (decide (∀ e ∈ (Spec.run ops).edges, (Spec.run ops).src e ≠ n)) := by
  have c := Core.run hv hs
  by_cases hn : n ∈ (Spec.run ops).nodes
  · obtain ⟨es, h1, h2⟩ := c.out_enum hn
    rw [h1]
    simp only [Option.map_some, Option.some.injEq]
    rw [Bool.eq_iff_iff, List.isEmpty_iff, decide_eq_true_iff]
    constructor
    · rintro rfl e he hd
      have := h2.mem_iff (a := e)
      simp [he, hd] at this
    · intro h
      apply List.Perm.eq_nil
      refine h2.trans (List.Perm.of_eq ?_)
      rw [List.filter_eq_nil_iff]
      intro e he; simpa using h e he
  · have g : Gone s (Spec.run ops) := Gone.init.runFrom Core.init hv hs
    have hd : ∀ e ∈ (Spec.run ops).edges, (Spec.run ops).src e ≠ n := fun e he h => hn (h ▸ (c.ends e he).1)
    simp [State.nodeEdges, (g n hn).2, EdgeMap.enum, EdgeMap.empty]
    exact hd

/-- After every history, `Sources` and `Sinks` list the nodes that the history shows and that are the target, or the
source, of no edge, in this order. The removed nodes that are shown are among them. -/
theorem C34_listing (ops : List Op) (hv : Spec.ValidHistory ops) (s : State) (hs : run ops = some s) :
    s.sources = some ((listingAfter ops).nodes.filter
      (fun n => ∀ e ∈ (Spec.run ops).edges, (Spec.run ops).dst e ≠ n)) ∧
    s.sinks = some ((listingAfter ops).nodes.filter
      (fun n => ∀ e ∈ (Spec.run ops).edges, (Spec.run ops).src e ≠ n)) := by
  have hg := C01_listing ops hv s hs
  constructor
  · simp only [State.sources, hg]
    exact filterOpt_some (fun n _ => incoming_isEmpty hv hs n)
  · simp only [State.sinks, hg]
    exact filterOpt_some (fun n _ => outgoing_isEmpty hv hs n)

/-- removed nodes are listed, lost ones are not; the edge to a lost node counts -/
example : Spec.ValidHistory tangledOps ∧ (run tangledOps).bind State.sources = some [3, 4, 5] ∧
    (run tangledOps).bind State.sinks = some [3, 5] := by decide +kernel

/-! ## C48 -/

/-- After every history, `ForEachNode` with a predicate that goes on calls it on the nodes the history shows. -/
theorem C48_listing (ops : List Op) (hv : Spec.ValidHistory ops) (s : State) (hs : run ops = some s) :
    s.forEachNode (fun _ => true) = some ((listingAfter ops).nodes, true) := by
  obtain ⟨calls, result, h1, h2, h3, _⟩ := C48_forEachNode s (fun _ => true) _ (C01_listing ops hv s hs)
  have : result = true := h2.2 (by simp)
  rw [h1, this, h3 this]

example : (run tangledOps).bind (fun s => s.forEachNode (fun _ => true)) = some ([3, 4, 5], true) := by decide +kernel

/-! ## C12 -/

/-- The first index on `k`, if there is one. -/
theorem first_index (k : String) : ∀ ops : List Op, ¬ NodeIndexed ops k ∨
    ∃ pre t post, ops = pre ++ .addNodeIndex k t :: post ∧ ¬ NodeIndexed pre k
  | [] => .inl (by rintro ⟨t, h⟩; cases h)
  | op :: ops => by
    by_cases ho : ∃ t, op = .addNodeIndex k t
    · obtain ⟨t, rfl⟩ := ho
      exact .inr ⟨[], t, ops, rfl, by rintro ⟨t, h⟩; cases h⟩
    · rcases first_index k ops with h | ⟨pre, t, post, rfl, h⟩
      · refine .inl ?_
        rintro ⟨t, ht⟩
        rcases List.mem_cons.1 ht with ht | ht
        · exact ho ⟨t, ht.symm⟩
        · exact h ⟨t, ht⟩
      · refine .inr ⟨op :: pre, t, post, rfl, ?_⟩
        rintro ⟨t', ht⟩
        rcases List.mem_cons.1 ht with ht | ht
        · exact ho ⟨t', ht.symm⟩
        · exact h ⟨t', ht⟩

theorem indexes_none {σ : Spec} {v : Listing} {k : String} {op : Op} (h : ∀ t, op ≠ .addNodeIndex k t) :
    op.indexes σ v k none = none := by
  cases op <;> simp only [Op.indexes]
  rename_i k' t
  rw [if_neg]
  rintro rfl
  exact h t rfl

theorem lookupFrom_tracked {k : String} : ∀ {ops : List Op} {σ : Spec} {v : Listing} {T : List Nat},
    lookupFrom k σ v (some T) ops = σ.tracksFrom k T ops
  | [], _, _, _ => rfl
  | _ :: ops, _, _, _ => lookupFrom_tracked (ops := ops)

theorem lookupFrom_plain {k : String} : ∀ {ops : List Op} {σ : Spec} {v : Listing}, ¬ NodeIndexed ops k → ∀ rest,
    lookupFrom k σ v none (ops ++ rest) = lookupFrom k (σ.runFrom ops) (v.from_ σ ops) none rest
  | [], _, _, _, _ => rfl
  | op :: ops, σ, v, h, rest => by
    have h0 : ∀ t, op ≠ .addNodeIndex k t := fun t e => h ⟨t, by simp [e]⟩
    have h1 : ¬ NodeIndexed ops k := fun ⟨t, ht⟩ => h ⟨t, List.mem_cons_of_mem _ ht⟩
    rw [List.cons_append, lookupFrom, indexes_none h0, lookupFrom_plain h1]
    rfl

theorem scan_run {ops : List Op} {s : State} (hv : Spec.ValidHistory ops) (hs : run ops = some s) (k : String) :
    ∃ ns, s.getNodes = some ns ∧ ns.filter (fun n => (s.nodeProperty n k).isSome) =
      (listingAfter ops).having (Spec.run ops) k := by
  refine ⟨_, C01_listing ops hv s hs, ?_⟩
  apply List.filter_congr
  intro n _
  rw [State.nodeProperty, (Kept.run hs).nprops]

/-- An index has what the history says. -/
theorem tracks_run {ops : List Op} {s : State} {k : String} (hv : Spec.ValidHistory ops) (hs : run ops = some s)
    (hk : NodeIndexed ops k) : Tracks k (lookupAfter ops k) s := by
  rcases first_index k ops with h | ⟨pre, t, post, rfl, h⟩
  · exact absurd hk h
  · obtain ⟨s0, ns, h1, h2, h3⟩ := run_addNodeIndex hv h hs
    obtain ⟨ns', h5, h6⟩ := scan_run (Spec.validFrom_append.1 hv).1 h1 k
    rw [h2] at h5
    cases h5
    rw [h6] at h3
    rw [lookupAfter, lookupFrom_plain h, lookupFrom]
    simp only [Op.indexes, if_true]
    rw [lookupFrom_tracked]
    exact h3

/-- C12, exactly, for every history and every key, indexed or not: what a lookup yields. -/
theorem C12_exact (ops : List Op) (hv : Spec.ValidHistory ops) (k : String) (s : State) (hs : run ops = some s) :
    ∃ ns, s.getNodesWithProperty k = some ns ∧ ns.Perm (lookupAfter ops k) := by
  by_cases h : NodeIndexed ops k
  · exact (tracks_run hv hs h).lookup
  · obtain ⟨ns, h1, h2⟩ := scan_run hv hs k
    have hnone : AMap.get s.nodeIx k = none := Classical.byContradiction fun hc => by
      rcases nodeIx_only (s := State.new) hs hc with hc | hc
      · simp [State.new, AMap.get] at hc
      · exact h hc
    refine ⟨_, by simp only [State.getNodesWithProperty, hnone, h1, Option.map_some]; rfl, ?_⟩
    have := lookupFrom_plain (σ := Spec.new) (v := Listing.empty) h []
    rw [List.append_nil] at this
    rw [lookupAfter, this, h2]
    exact List.Perm.refl _

/-- an index over a broken list: node 1 was removed, node 3 is lost until its property is set, node 4 stays out -/
def strayOps : List Op :=
  [.newNode [] [], .detachRemove 0, .newNode [] [("x", .int 1)], .newNode [] [("x", .int 1)], .detachRemove 2,
   .newNode [] [("x", .int 2)], .newNode [] [("x", .int 3)], .detachRemove 1, .addNodeIndex "x" .hash,
   .setNodeProp 3 "x" (.int 1), .newNode [] [("x", .int 4)]]

example : Spec.ValidHistory strayOps ∧ (Spec.run strayOps).nodes = [3, 4, 5] ∧ lookupAfter strayOps "x" = [1, 3, 5] ∧
    lookupAfter strayOps "y" = [] ∧
    (run strayOps).bind (fun s => s.getNodesWithProperty "x") = some [1, 3, 5] := by decide +kernel

/-! ## C14 -/

theorem nodeFilter_kept {s : State} {σ : Spec} (c : Kept s σ) (n : Nat) (ls : List String) (req : AMap String Value) :
    nodeFilter ls req (s.nLabels n) (s.nProps n) = true ↔ σ.NodeMatches ls req n := by
  rw [nodeFilter_iff]
  unfold Spec.NodeMatches PropsMatch
  simp only [c.labels, c.nprops]

/-- C14, exactly, for every history: what `FindNodes` yields for a non-empty set of labels are the matching nodes of
the graph, or those among the nodes that the lookup of one of the asked, indexed properties yields. The values are
not wrappers of wrappers. -/
theorem C14_exact (ops : List Op) (hv : Spec.ValidHistory ops) (ls : List String)
    (hls : ls ≠ []) (req : AMap String Value) (hreq : ∀ k v, (k, v) ∈ req → v.Flat)
    (hflat : ∀ n k w, (Spec.run ops).nprop n k = some w → w.Flat) (s : State) (hs : run ops = some s) (ns : List Nat)
    (hf : s.findNodes ls req = some ns) :
    ∃ S, (S = (Spec.run ops).nodes ∨ ∃ k v, (k, v) ∈ req ∧ NodeIndexed ops k ∧ S = lookupAfter ops k) ∧
      Lists ns S ((Spec.run ops).NodeMatches ls req) := by
  have c := Core.run hv hs
  have kp := Kept.run hs
  obtain ⟨ns0, h0, h0p⟩ := C10 ops hv s hs ls hls
  obtain ⟨xs, m, e1, _, e3, _⟩ := NodeMap.allLabels_nonempty s.byLabel (LblRep.run hv hs).ok s.nLabels ls hls
  have hlen : ¬ ls.length = 0 := by rw [List.length_eq_zero_iff]; exact hls
  have hxs : xs = ns0 := by simpa [State.getNodesWithAllLabels, e1] using h0
  subst hxs
  have fin : ∀ (S ys : List Nat), ys.Nodup → (∀ y ∈ ys, y ∈ S) →
      (∀ n ∈ S, (Spec.run ops).NodeMatches ls req n → n ∈ ys) →
      Lists (ys.filter (fun n => nodeFilter ls req (s.nLabels n) (s.nProps n))) S
        ((Spec.run ops).NodeMatches ls req) := by
    intro S ys hy1 hy2 hy3
    refine ⟨hy1.filter _, fun x => ?_⟩
    rw [List.mem_filter, nodeFilter_kept kp]
    exact ⟨fun h => ⟨hy2 x h.1, h.2⟩, fun h => ⟨hy3 x h.1 h.2, h.2⟩⟩
  unfold State.findNodes at hf
  rw [if_neg (fun h => hlen h.1), if_neg hlen, e1] at hf
  split at hf
  · rename_i bl its hbl hits
    cases hbl
    obtain ⟨p1, p2⟩ := propIters_mem hits
    have hm : m ≠ -1 := by omega
    rcases choose_cases hf with ⟨_, rfl⟩ | ⟨b, hb, rfl⟩ | ⟨_, hm', _⟩
    · refine ⟨_, .inl rfl, fin _ _ (h0p.nodup_iff.2 (c.nNodup.filter _)) ?_ ?_⟩
      · intro y hy; exact (List.mem_filter.1 (h0p.mem_iff.1 hy)).1
      · intro n hn hmt
        refine h0p.mem_iff.2 (List.mem_filter.2 ⟨hn, ?_⟩)
        simpa using hmt.1
    · rcases (minIter_spec its none).1 b hb with hb | hb
      · obtain ⟨k, v, ix, q1, q2, q3⟩ := p1 b hb
        have hk : NodeIndexed ops k := by
          rcases nodeIx_only (s := State.new) (k := k) hs (by simp [q2]) with hc | hc
          · simp [State.new, AMap.get] at hc
          · exact hc
        obtain ⟨⟨ix', g1, rep⟩, tnd, thas⟩ := tracks_run hv hs hk
        rw [q2] at g1
        cases g1
        obtain ⟨r1, r2, r3, r4⟩ := rep.find (xs := b.1) (m := b.2) q3
        refine ⟨_, .inr ⟨k, v, q1, hk, rfl⟩, fin _ _ r1 ?_ ?_⟩
        · intro y hy
          obtain ⟨w, hw⟩ := r3 y hy
          split at hw
          · assumption
          · cases hw
        · intro n hn hmt
          obtain ⟨w, a, b⟩ := hmt.2 k v q1
          refine r4 n w ?_ b (hreq k v q1) (hflat n k w a)
          rw [if_pos hn, kp.nprops]; exact a
      · cases hb
    · exact absurd hm' hm
  · cases hf

/-- The index on `x` has the removed node 1 and lacks the lost nodes 3 and 4. Node 4 has the labels of both queries;
the second one is answered from the labels. -/
def strayLabelOps : List Op :=
  [.newNode [] [], .detachRemove 0, .newNode ["A"] [("x", .int 1)], .newNode [] [("x", .int 1)], .detachRemove 2,
   .newNode ["A"] [("x", .int 2)], .newNode ["A", "B"] [("x", .int 1)], .detachRemove 1, .addNodeIndex "x" .hash,
   .newNode [] [("x", .int 1)]]

example : Spec.ValidHistory strayLabelOps ∧ (Spec.run strayLabelOps).nodes = [3, 4, 5] ∧
    lookupAfter strayLabelOps "x" = [1, 5] ∧
    (run strayLabelOps).bind (fun s => s.findNodes ["A"] [("x", .int 1)]) = some [1] ∧
    (run strayLabelOps).bind (fun s => s.findNodes ["A", "B"] [("x", .int 1)]) = some [4] := by decide +kernel

/-- So C14 holds after every history after which the lookups of the asked, indexed properties are right. -/
theorem C14_lookup_partial (ops : List Op) (hv : Spec.ValidHistory ops) (ls : List String)
    (hls : ls ≠ []) (req : AMap String Value) (hreq : ∀ k v, (k, v) ∈ req → v.Flat)
    (hflat : ∀ n k w, (Spec.run ops).nprop n k = some w → w.Flat)
    (hk : ∀ k v, (k, v) ∈ req → NodeIndexed ops k → C12_statement ops k) : C14_statement ops ls req := by
  intro s hs ns hf
  obtain ⟨S, hS, h⟩ := C14_exact ops hv ls hls req hreq hflat s hs ns hf
  rcases hS with rfl | ⟨k, v, h1, h2, rfl⟩
  · exact h
  · obtain ⟨xs, h3, h4⟩ := hk k v h1 h2 s hs
    obtain ⟨ys, h5, h6⟩ := C12_exact ops hv k s hs
    rw [h3] at h5
    cases h5
    refine ⟨h.1, fun x => (h.2 x).trans ?_⟩
    rw [h6.symm.trans h4 |>.mem_iff, List.mem_filter]
    refine ⟨fun hh => ⟨hh.1.1, hh.2⟩, fun hh => ⟨⟨hh.1, ?_⟩, hh.2⟩⟩
    obtain ⟨w, hw, _⟩ := hh.2.2 k v h1
    simp [hw]

/-- an index that missed the lost node 3, and is right since its property was set again -/
example : (run (strayLabelOps ++ [.setNodeProp 3 "y" (.int 7), .addNodeIndex "y" .btree, .setNodeProp 3 "y" (.int 8)])).bind
      (fun s => s.findNodes ["A"] [("y", .int 8)]) = some [3] ∧
    lookupAfter (strayLabelOps ++ [.setNodeProp 3 "y" (.int 7), .addNodeIndex "y" .btree, .setNodeProp 3 "y" (.int 8)]) "y"
      = [3] := by decide +kernel

end LPG
