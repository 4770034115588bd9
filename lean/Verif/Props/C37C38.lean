import Verif.Proofs.CloneLoops
import Verif.Proofs.WorldTotal
import Verif.Props.C51
/-!
# C37, C38: copying graphs

The theorems range over programs with several graphs (`Verif.Model.World`). `CopyOf` and `Spec.Reach` are in
`Verif.Spec.Clone`, `Shows` (all queries have the answers of an abstract graph) in `Verif.Spec.World`.

`Clean t (ops ++ [(t, .newNode [] [])])` says that graph `t` is not spoiled by the defects of C01 and C04, and that a node
may still be created in it without being lost (C01). `WSpec.listing` says what `GetNodes` of a graph shows, spoiled or not.
-/
namespace LPG
open World

theorem Shows.next {s : State} {σ : Spec} {k : Nat} (h : Shows s { σ with next := k }) : Shows s σ :=
  ⟨h.nodes, h.edges, h.numNodes, h.numEdges, h.labels, h.nprop, h.ends, h.label, h.eprop, h.outgoing, h.incoming, h.distinct,
    h.closed⟩

/-- the values that a program and copies of the nodes `ns` of graph `s` give to the properties of nodes -/
def CopyNodeValue (ns : List Nat) (s : Nat) (f : String → Value → Value) (ops : List (Nat × Op)) (k : String) (v : Value) : Prop :=
  WSpec.NodeValue ops k v ∨ ∃ n ∈ ns, ∃ w, (WSpec.run ops s).nprop n k = some w ∧ v = f k w

/-- the values that a program and copies of the edges `es` of graph `s` give to the properties of edges -/
def CopyEdgeValue (es : List Nat) (s : Nat) (f : String → Value → Value) (ops : List (Nat × Op)) (k : String) (v : Value) : Prop :=
  WSpec.EdgeValue ops k v ∨ ∃ e ∈ es, ∃ w, (WSpec.run ops s).eprop e k = some w ∧ v = f k w

theorem copyNodeValue {ns : List Nat} {s : Nat} {f : String → Value → Value} {ops : List (Nat × Op)} : ∀ n ∈ ns, ∀ k v,
    (WSpec.run ops s).nprop n k = some v → CopyNodeValue ns s f ops k (f k v) := fun n hn _ v h => .inr ⟨n, hn, v, h, rfl⟩

theorem copyEdgeValue {es : List Nat} {s : Nat} {f : String → Value → Value} {ops : List (Nat × Op)} : ∀ e ∈ es, ∀ k v,
    (WSpec.run ops s).eprop e k = some v → CopyEdgeValue es s f ops k (f k v) := fun n hn _ v h => .inr ⟨n, hn, v, h, rfl⟩

/-- the start of a copy with a map -/
theorem copyStartInto {ops : List (Nat × Op)} {W : World} (hv : WSpec.ValidHistory ops) (hr : World.run ops = some W) (ns es : List Nat)
    (s t : Nat) (f : String → Value → Value) {m0 : List (Nat × Nat)} (hk : (m0.map Prod.fst).Nodup)
    (hm : ∀ p ∈ m0, p.2 ∈ (WSpec.run ops t).nodes) :
    CopyingInto m0 (CopyIndexableOn ns es s t f ops ∧ (W.view t).getEdges ≠ none) (WSpec.Clean t (ops ++ [(t, .newNode [] [])]))
      (CopyNodeValue ns s f ops) (CopyEdgeValue es s f ops) f s t W (WSpec.run ops) W (WSpec.run ops) [] [] := by
  have r := Rep.init.runFrom hv hr
  have o := Ordered.init.runFrom Rep.init hv hr
  refine CopyingInto.start r o (fun ht => ?_) (fun hi => ?_) And.right hk hm
  · obtain ⟨d, R, l, hm⟩ := Rep.init.lists (Lists.init t) hv (cleanFrom_prefix ht) hr
    exact ⟨d, R, l, (((hm _).1 ht).1 rfl).1⟩
  · have := SafeIx.world (Pn := CopyNodeValue ns s f ops) (Pe := CopyEdgeValue es s f ops) Rep.init Ordered.init hv
      (SafeIx.init _ _) (fun p hp k v h => .inl ⟨p, hp, h⟩) (fun p hp k v h => .inl ⟨p, hp, h⟩) hi.1.1 hi.1.2 hr
    exact ⟨this.nix, this.eix⟩

/-- the start of a copy -/
theorem copyStart {ops : List (Nat × Op)} {W : World} (hv : WSpec.ValidHistory ops) (hr : World.run ops = some W) (ns es : List Nat)
    (s t : Nat) (f : String → Value → Value) :
    Copying (CopyIndexableOn ns es s t f ops ∧ (W.view t).getEdges ≠ none) (WSpec.Clean t (ops ++ [(t, .newNode [] [])]))
      (CopyNodeValue ns s f ops) (CopyEdgeValue es s f ops) f s t W (WSpec.run ops) W (WSpec.run ops) [] [] :=
  copyStartInto hv hr ns es s t f (by simp) (by simp)

/-- what the enumeration of the nodes of each graph shows -/
theorem worldShowing {ops : List (Nat × Op)} {W : World} (hv : WSpec.ValidHistory ops) (hr : World.run ops = some W) (g : Nat) :
    Showing W (WSpec.run ops) g (WSpec.listing g ops) := (Showing.init g).runFrom Rep.init hv hr

theorem worldListing {ops : List (Nat × Op)} {W : World} (hv : WSpec.ValidHistory ops) (hr : World.run ops = some W) (g : Nat) :
    (W.view g).getNodes = some (WSpec.listing g ops).nodes :=
  (worldShowing hv hr g).shows.getNodes ((Rep.init.runFrom hv hr).core g)

/-- A graph that is not spoiled can enumerate its edges. -/
theorem clean_edges {ops : List (Nat × Op)} {W : World} (hv : WSpec.ValidHistory ops) (hr : World.run ops = some W) {g : Nat}
    (h : WSpec.Clean g ops) : (W.view g).getEdges ≠ none := by
  obtain ⟨es, hes, _⟩ := (C51_partial hv hr h).edges
  rw [hes]; simp

/-- If the target has no index, there is no condition. -/
theorem NoIndex.copyIndexable {ns es : List Nat} {s t : Nat} {f : String → Value → Value} {ops : List (Nat × Op)} (h : NoIndex t ops) :
    CopyIndexableOn ns es s t f ops :=
  ⟨fun k ty hp => absurd rfl ((h _ hp).1 k ty), fun k ty hp => absurd rfl ((h _ hp).2 k ty)⟩

/-- What all copies have in common: the target holds the new graph, its enumeration of nodes is the one of C01 after the copies
were created, it shows the new graph unless it is spoiled by C01/C04, and the queries of all other graphs have the answers
that they had. -/
structure Copied (ops : List (Nat × Op)) (t : Nat) (W W' : World) (σ' : Spec) (m : AMap Nat Nat) : Prop where
  holds : Holds (W'.view t) σ'
  nodes : (W'.view t).getNodes = some ((m.map Prod.snd).foldl Listing.create (WSpec.listing t ops)).nodes
  shows : WSpec.Clean t (ops ++ [(t, .newNode [] [])]) → Shows (W'.view t) σ'
  others : ∀ g, g ≠ t → SameAnswers (W.N g) (W.E g) (W.view g) (W'.view g)
  othersShow : ∀ g, g ≠ t → WSpec.Clean g ops → Shows (W'.view g) (WSpec.run ops g)
  /-- different nodes have different copies -/
  distinct : (m.map Prod.snd).Nodup

theorem World.CopyingInto.copied {ops : List (Nat × Op)} {W W' : World} (hv : WSpec.ValidHistory ops) (hr : World.run ops = some W)
    {m0 : List (Nat × Nat)} {U : Prop} {Pn Pe : String → Value → Prop} {f : String → Value → Value} {s t : Nat} {ω : WSpec}
    {m : AMap Nat Nat} {es : List Nat}
    (c : CopyingInto m0 U (WSpec.Clean t (ops ++ [(t, .newNode [] [])])) Pn Pe f s t W (WSpec.run ops) W' ω m es) :
    Copied ops t W W' (ω t) m := by
  refine ⟨(c.rep.core t).holds, c.getNodes (worldShowing hv hr t), fun h => (c.lists h).shows c.rep,
    fun g hg => c.same (Rep.init.runFrom hv hr).inv hg, fun g hg hc => ?_, ?_⟩
  · obtain ⟨d, Rg, lg, _⟩ := Rep.init.lists (Lists.init g) hv hc hr
    have := c.rep.shows (c.keep g hg _ _ lg)
    rw [c.others g hg] at this
    exact this.next
  · have := (c.rep.core t).nNodup
    rw [c.copy.nodes, List.nodup_append] at this
    exact this.2.1

/-- `CopyGraph` from graph `s` to another graph `t`: the target afterwards holds its old content and one copy of each node
and of each edge of the source, with the same labels and mapped properties, the edges between the copies of their ends;
the result is the map from the nodes to their copies; and every other graph, the source included, shows what it showed.
Partial: the source is not spoiled by C01/C04, and source and target are two graphs (see `C37_false`, `C37_self`). -/
theorem C37_partial {ops : List (Nat × Op)} {W : World} (hv : WSpec.ValidHistory ops) (hr : World.run ops = some W)
    {s t : Nat} (hst : s ≠ t) (hs : WSpec.Clean s ops)
    {f : String → Value → Value} {W' : World} {m : AMap Nat Nat} (h : W.copyGraph s t f = some (W', m)) :
    ∃ σ' es, Copied ops t W W' σ' m ∧ CopyOf f (WSpec.run ops s) (WSpec.run ops t) σ' m es ∧
      m.map Prod.fst = (WSpec.run ops s).nodes ∧ es.Perm (WSpec.run ops s).edges := by
  have c0 := copyStart hv hr (WSpec.run ops s).nodes (WSpec.run ops s).edges s t f
  obtain ⟨d, Rs, ls, _⟩ := Rep.init.lists (Lists.init s) hv hs hr
  obtain ⟨ω', es, c, h1, h2⟩ := (copyGraph_spec hst ls copyNodeValue copyEdgeValue c0).2 _ h
  exact ⟨ω' t, es, c.copied hv hr, c.copy, h1, h2⟩

/-- `CopyGraph` between any two graphs, spoiled or not: exactly the nodes that `GetNodes` of the source shows are copied
(`worldListing` says which), and exactly the edges that `GetEdges` shows and whose two ends were copied. The call returns
if the values suit the indexes of the target and the target can enumerate its edges (C49). -/
theorem C37_listed {ops : List (Nat × Op)} {W : World} (hv : WSpec.ValidHistory ops) (hr : World.run ops = some W)
    {s t : Nat} (hst : s ≠ t) {es : List Nat} (he : (W.view s).getEdges = some es) {f : String → Value → Value} :
    let ns := (WSpec.listing s ops).nodes
    (CopyIndexableOn ns es s t f ops → (W.view t).getEdges ≠ none → W.copyGraph s t f ≠ none) ∧
    ∀ W' m, W.copyGraph s t f = some (W', m) → ∃ σ', Copied ops t W W' σ' m ∧
      CopyOf f (WSpec.run ops s) (WSpec.run ops t) σ' m
        (es.filter (fun e => (WSpec.run ops s).src e ∈ ns ∧ (WSpec.run ops s).dst e ∈ ns)) ∧ m.map Prod.fst = ns := by
  intro ns
  have c0 := copyStart hv hr ns es s t f
  obtain ⟨k1, k2⟩ := copyGraph_listed hst (worldListing hv hr s) he copyNodeValue copyEdgeValue c0
  refine ⟨fun hi ht => k1 ⟨hi, ht⟩, fun W' m h => ?_⟩
  obtain ⟨ω', c, h1⟩ := k2 _ h
  exact ⟨ω' t, c.copied hv hr, c.copy, h1⟩

/-- `CopyGraph` does not return if the source cannot enumerate its edges (C04). -/
theorem C37_stuck {ops : List (Nat × Op)} {W : World} (hv : WSpec.ValidHistory ops) (hr : World.run ops = some W)
    {s t : Nat} (hst : s ≠ t) (he : (W.view s).getEdges = none) (f : String → Value → Value) : W.copyGraph s t f = none :=
  copyGraph_stuck hst (worldListing hv hr s) he copyNodeValue (copyStart hv hr _ [] s t f)

/-- `CopyGraph` returns, if the source is not spoiled, the target can enumerate its edges, and the values given to properties
with an index in the target suit the index (otherwise the index panics); in particular, if the target has no index
(`NoIndex.copyIndexable`). -/
theorem C37_returns {ops : List (Nat × Op)} {W : World} (hv : WSpec.ValidHistory ops) (hr : World.run ops = some W)
    {s t : Nat} (hst : s ≠ t) (hs : WSpec.Clean s ops) (ht : (W.view t).getEdges ≠ none)
    {f : String → Value → Value} (hi : CopyIndexable s t f ops) : W.copyGraph s t f ≠ none := by
  have c0 := copyStart hv hr (WSpec.run ops s).nodes (WSpec.run ops s).edges s t f
  obtain ⟨d, Rs, ls, _⟩ := Rep.init.lists (Lists.init s) hv hs hr
  exact (copyGraph_spec hst ls copyNodeValue copyEdgeValue c0).1 ⟨hi, ht⟩

/-- `CopySubgraph` with an empty map: exactly the nodes that can be reached over outgoing edges are copied, each once, and
exactly the edges that leave them, each once. The target may be the graph of the node itself. Both graphs may be spoiled. -/
theorem C38_copies {ops : List (Nat × Op)} {W : World} (hv : WSpec.ValidHistory ops) (hr : World.run ops = some W)
    {s t n : Nat} (hn : n ∈ (WSpec.run ops s).nodes)
    {f : String → Value → Value} {W' : World} {m : AMap Nat Nat} (h : copySubgraph t f (W, []) n = some (W', m)) :
    ∃ σ' es, Copied ops t W W' σ' m ∧ CopyOf f (WSpec.run ops s) (WSpec.run ops t) σ' m es ∧ (m.map Prod.fst).Nodup ∧
      (∀ x, x ∈ m.map Prod.fst ↔ (WSpec.run ops s).Reach n x) ∧
      es.Nodup ∧ (∀ e, e ∈ es ↔ e ∈ (WSpec.run ops s).edges ∧ (WSpec.run ops s).Reach n ((WSpec.run ops s).src e)) := by
  have c0 := copyStart hv hr (WSpec.run ops s).nodes (WSpec.run ops s).edges s t f
  obtain ⟨ω', m2, es, h1, c, h2⟩ := (copySubgraph_spec c0.rep copyNodeValue copyEdgeValue
    (fun e he => ((c0.rep.core s).ends e he).2) _ (Nat.lt_succ_self _) hn c0).2 _ h
  simp only [List.nil_append] at h1 c
  subst h1
  have hreach : ∀ x, x ∈ m.map Prod.fst ↔ (WSpec.run ops s).Reach n x := by
    intro x
    constructor
    · intro hx
      obtain ⟨p, hp, rfl⟩ := List.mem_map.1 hx
      exact Spec.reachOff_nil.1 (h2.reach p hp)
    · intro hx
      induction hx with
      | refl => exact h2.here
      | tail _ he hs ih => exact h2.targets _ ((h2.edges _).2 ⟨he, hs ▸ ih⟩)
  exact ⟨ω' t, es, c.copied hv hr, c.copy, c.keys, hreach, h2.nodup, fun e => by rw [h2.edges e, hreach]⟩

/-- `CopySubgraph` returns on every graph, cyclic or not, if the target can enumerate its edges and the values given to
properties with an index in the target suit the index. Partial: see `C38_false`. -/
theorem C38_returns_partial {ops : List (Nat × Op)} {W : World} (hv : WSpec.ValidHistory ops) (hr : World.run ops = some W)
    {s t n : Nat} (hn : n ∈ (WSpec.run ops s).nodes) (ht : (W.view t).getEdges ≠ none)
    {f : String → Value → Value} (hi : CopyIndexable s t f ops) : copySubgraph t f (W, []) n ≠ none := by
  have c0 := copyStart hv hr (WSpec.run ops s).nodes (WSpec.run ops s).edges s t f
  exact (copySubgraph_spec c0.rep copyNodeValue copyEdgeValue
    (fun e he => ((c0.rep.core s).ends e he).2) _ (Nat.lt_succ_self _) hn c0).1 ⟨hi, ht⟩

/-! ## Copying a graph to itself -/

/-- `k` rounds of the loop over the nodes in `CopyGraphf` (clone.go:36-42). -/
def copyRounds (t : Nat) (f : String → Value → Value) : Nat → World → Option Nat → AMap Nat Nat →
    Option (World × Option Nat × AMap Nat Nat)
  | 0, W, nxt, m => some (W, nxt, m)
  | _ + 1, W, none, m => some (W, none, m)
  | k + 1, W, some n, m =>
    match W.cloneNode t n f with
    | none => none
    | some r => copyRounds t f k r.1 (W.heap.nptr.next n) (m.set n r.2)

theorem copyRounds_done {t : Nat} {f : String → Value → Value} : ∀ {k : Nat} {W W' : World} {nxt : Option Nat}
    {m m' : AMap Nat Nat}, copyRounds t f k W nxt m = some (W', none, m') → copyNodes t f W nxt m = some (W', m')
  | 0, W, W', nxt, m, m', h => by cases h; exact copyNodes_nil W m
  | k + 1, W, W', none, m, m', h => by cases h; exact copyNodes_nil W m
  | k + 1, W, W', some n, m, m', h => by
    rw [copyRounds] at h
    rw [copyNodes_cons]
    cases hc : W.cloneNode t n f with
    | none => rw [hc] at h; cases h
    | some r => rw [hc] at h; exact copyRounds_done h

/-- While a graph is copied to itself, there is always a node left: the copies are appended to the list that is being
walked. -/
theorem selfRounds {t : Nat} {f : String → Value → Value} : ∀ (k : Nat) {W : World} {ω : WSpec}
    {m : AMap Nat Nat} {pre post : List Nat} {a b : Nat}, Rep W ω → Ready W ω t → NoIx (W.view t) →
    (ω t).nodes = pre ++ a :: b :: post →
    ∃ W' n m', copyRounds t f k W (some a) m = some (W', some n, m') ∧ W'.heap.idBase = W.heap.idBase + k
  | 0, W, ω, m, pre, post, a, b, r, l, hi, hn => ⟨W, a, m, rfl, rfl⟩
  | k + 1, W, ω, m, pre, post, a, b, r, l, hi, hn => by
    have ha : a ∈ (ω t).nodes := by rw [hn]; simp
    have ct := r.core t
    obtain ⟨hv, hl, hp, hst⟩ := cloneNode_step r (N := (· ∈ (ω t).nodes)) (E := (· ∈ (ω t).edges)) (τ := ω t)
      ⟨ct.labels, ct.nprops, ct.eattr, ct.eprops⟩ (t := t) (f := f) ha
    have hne : ∃ q, W.cloneNode t a f = some q := by
      unfold cloneNode State.newNode
      simp only
      rw [hi.1, Indexes.addAll_nil]
      exact ⟨_, rfl⟩
    obtain ⟨⟨W1, n1⟩, hc⟩ := hne
    obtain ⟨hst, _⟩ := hst W1 n1 hc
    obtain ⟨_, r1, hs1, _⟩ := r.step hv hst
    have l1 := l.newNode r hv hst
    have hi1 := hi.step hs1 (by simp) (by simp)
    have hnx : W.heap.nptr.next a = some b := by
      obtain ⟨_, _, l, _⟩ := l
      obtain ⟨_, hvis, _⟩ := l.nodes.vis
      have hseg := hvis.seg
      rw [hn] at hseg
      have := (seg_append.1 hseg).2
      simp only [Seg, NPtr.slot] at this
      exact this.2.1
    have hlast : ∃ b' post', b :: post ++ [(ω t).next] = b :: b' :: post' := by
      cases post with
      | nil => exact ⟨_, _, rfl⟩
      | cons b' post => exact ⟨_, _, rfl⟩
    obtain ⟨b', post', hb'⟩ := hlast
    have hn1 : ((ω.step t (.newNode (W.heap.nLabels a) (cloneProps f (W.heap.nProps a)))) t).nodes =
        (pre ++ [a]) ++ b :: b' :: post' := by
      simp only [WSpec.step, if_true, Spec.step, hn]
      simp only [List.append_assoc, List.cons_append, List.nil_append] at hb' ⊢
      rw [hb']
    obtain ⟨W', n, m', h1, h2⟩ := selfRounds k (m := m.set a n1) r1 l1 hi1 hn1
    refine ⟨W', n, m', ?_, ?_⟩
    · rw [copyRounds, hc]
      simp only [hnx]
      exact h1
    · have hb : W1.heap.idBase = W.heap.idBase + 1 := (step_alloc hs1).2.1
      rw [h2, hb]; omega

theorem rounds_of_copy {t : Nat} {f : String → Value → Value} {W : World} {nxt : Option Nat} {m : AMap Nat Nat}
    {r : World × AMap Nat Nat} (h : copyNodes t f W nxt m = some r) : ∃ k, copyRounds t f k W nxt m = some (r.1, none, r.2) := by
  revert h
  apply copyNodes.partial_correctness t f (motive := fun W nxt m r => ∃ k, copyRounds t f k W nxt m = some (r.1, none, r.2))
  intro copy ih W nxt m r h
  cases nxt with
  | none => simp only [Option.some.injEq] at h; subst h; exact ⟨0, rfl⟩
  | some n =>
    simp only [Option.bind_eq_bind] at h
    cases hc : W.cloneNode t n f with
    | none => rw [hc] at h; cases h
    | some q =>
      rw [hc, Option.bind_some] at h
      obtain ⟨k, hk⟩ := ih _ _ _ _ h
      exact ⟨k + 1, by rw [copyRounds, hc]; exact hk⟩

theorem rounds_stay {t : Nat} {f : String → Value → Value} : ∀ {k j : Nat} {W W' : World} {nxt : Option Nat} {m m' : AMap Nat Nat},
    copyRounds t f k W nxt m = some (W', none, m') → k ≤ j → copyRounds t f j W nxt m = some (W', none, m')
  | 0, 0, W, W', nxt, m, m', h, _ => h
  | 0, j + 1, W, W', nxt, m, m', h, _ => by cases h; rfl
  | k + 1, 0, _, _, _, _, _, _, hj => by omega
  | k + 1, j + 1, W, W', none, m, m', h, _ => h
  | k + 1, j + 1, W, W', some n, m, m', h, hj => by
    rw [copyRounds] at h ⊢
    cases hc : W.cloneNode t n f with
    | none => rw [hc] at h; cases h
    | some q => rw [hc] at h; exact rounds_stay h (by omega)

/-- `CopyGraph` of a graph with two or more nodes to itself does not return: after any number of rounds there is another
node to copy, and each round has created a node. -/
theorem C37_self {ops : List (Nat × Op)} {W : World} (hv : WSpec.ValidHistory ops) (hr : World.run ops = some W)
    {t : Nat} (ht : WSpec.Clean t (ops ++ [(t, .newNode [] [])])) (hi : NoIndex t ops)
    (h2 : 2 ≤ (WSpec.run ops t).nodes.length) (f : String → Value → Value) :
    W.copyGraph t t f = none ∧
    ∀ k, ∃ W' n m', copyRounds t f k W (W.root t).allNodes.head [] = some (W', some n, m') ∧
      W'.heap.idBase = W.heap.idBase + k := by
  have c0 := copyStart hv hr [] [] t t f
  obtain ⟨a, b, post, hn⟩ : ∃ a b post, (WSpec.run ops t).nodes = a :: b :: post := by
    match hnn : (WSpec.run ops t).nodes, h2 with
    | a :: b :: post, _ => exact ⟨a, b, post, rfl⟩
  have hh : (W.root t).allNodes.head = some a := by
    obtain ⟨_, _, l, _⟩ := c0.lists ht
    obtain ⟨_, hvis, _⟩ := l.nodes.vis
    have := hvis.head
    rw [hn] at this
    exact this
  have key := fun k => selfRounds (f := f) k (m := []) (pre := []) c0.rep (c0.lists ht)
    (noIx (t := t) Rep.init ⟨rfl, rfl⟩ hv hi hr) hn
  refine ⟨?_, by rw [hh]; exact key⟩
  unfold copyGraph
  rw [hh]
  cases hc : copyNodes t f W (some a) [] with
  | none => rfl
  | some r =>
    obtain ⟨k, hk⟩ := rounds_of_copy hc
    obtain ⟨W', n, m', h3, _⟩ := key k
    rw [hk] at h3
    cases h3

/-! ## Counterexample -/

/-- Graph 0 has lost its newest node and then got another one. -/
def lostCopy : List (Nat × Op) :=
  [(0, .newNode ["A"] []), (0, .newNode ["B"] []), (0, .detachRemove 1), (0, .newNode ["C"] [])]

/-- A node that `GetNodes` does not show (C01) is not copied. -/
theorem C37_false : ∃ ops W W' m, WSpec.ValidHistory ops ∧ World.run ops = some W ∧
    W.copyGraph 0 1 (fun _ v => v) = some (W', m) ∧ 2 ∈ (WSpec.run ops 0).nodes ∧ 2 ∉ m.map Prod.fst := by
  cases hr : World.run lostCopy with
  | none => exact absurd hr (by decide +kernel)
  | some W =>
    have h1 : ((World.run lostCopy).bind (fun W => copyRounds 1 (fun _ v => v) 2 W (W.root 0).allNodes.head [])).map
        (fun p => (p.2, (p.1.view 0).getEdges)) = some ((none, [(0, 3)]), some []) := by decide +kernel
    rw [hr, Option.bind_some] at h1
    obtain ⟨⟨W1, x, m⟩, h2, h3⟩ := Option.map_eq_some_iff.1 h1
    simp only [Prod.mk.injEq] at h3
    obtain ⟨⟨rfl, rfl⟩, h4⟩ := h3
    refine ⟨lostCopy, W, W1, [(0, 3)], by decide +kernel, hr, ?_, by decide +kernel, by decide⟩
    unfold copyGraph
    rw [copyRounds_done h2]
    simp only [Option.bind_eq_bind, Option.bind_some, h4, copyEdges]
    rfl

/-- Graph 1 has relabelled its edges before it removed them, and a new edge makes it panic (C49). -/
def stuckTarget : List (Nat × Op) :=
  [(0, .newNode ["A"] []), (0, .newEdge 0 0 "e" []), (1, .newNode [] []), (1, .newEdge 2 2 "A" []), (1, .newEdge 2 2 "B" []),
   (1, .newEdge 2 2 "B" []), (1, .setEdgeLabel 3 "B"), (1, .removeEdge 3), (1, .setEdgeLabel 4 "A"), (1, .removeEdge 4)]

/-- `CopySubgraph` into such a graph panics, though there are no indexes. -/
theorem C38_false : ∃ ops W, WSpec.ValidHistory ops ∧ World.run ops = some W ∧ NoIndex 1 ops ∧ 0 ∈ (WSpec.run ops 0).nodes ∧
    copySubgraph 1 (fun _ v => v) (W, []) 0 = none := by
  cases hr : World.run stuckTarget with
  | none => exact absurd hr (by decide +kernel)
  | some W =>
    refine ⟨stuckTarget, W, by decide +kernel, hr, ?_, by decide +kernel, ?_⟩
    · intro op h; simp [stuckTarget] at h; grind
    · have h1 : ((World.run stuckTarget).bind (fun W => W.copyNode 0 1 (fun _ v => v))).map
          (fun r => (r.2, r.1.heap.nodeEdges 0 .outgoing, r.1.heap.eTo 1,
            (r.1.copyEdge 1 1 (fun _ v => v) [(0, r.2)]).isNone)) = some (6, some [1], 0, true) := by decide +kernel
      rw [hr, Option.bind_some] at h1
      obtain ⟨⟨W1, n'⟩, h2, h3⟩ := Option.map_eq_some_iff.1 h1
      simp only [Prod.mk.injEq, Option.isNone_iff_eq_none] at h3
      obtain ⟨rfl, h4, h5, h6⟩ := h3
      rw [copySubgraph_eq]
      simp only [AMap.get, h2, Option.bind_some, h4, AMap.set, Option.isSome_none, Bool.false_eq_true, if_false, List.foldlM_cons, h5]
      rw [copySubgraph_eq]
      simp [AMap.get, h6]

/-! ## Examples -/

/-- Graph 0 has lost node 3, the end of one edge and the start of another. -/
def lostEdges : List (Nat × Op) :=
  [(0, .newNode ["A"] []), (0, .newNode ["B"] []), (0, .newNode ["D"] []), (0, .detachRemove 2), (0, .newNode ["C"] []),
   (0, .newEdge 0 3 "x" []), (0, .newEdge 3 1 "y" []), (0, .newEdge 0 1 "z" [])]

example : WSpec.ValidHistory lostEdges ∧ (WSpec.listing 0 lostEdges).nodes = [0, 1] ∧
    ((World.run lostEdges).map (fun W => ((W.view 0).getNodes, (W.view 0).getEdges))) = some (some [0, 1], some [4, 5, 6]) ∧
    (WSpec.run lostEdges 0).nodes = [0, 1, 3] ∧ (WSpec.run lostEdges 0).edges = [4, 5, 6] := by
  decide +kernel

/-- Both graphs are spoiled: the source shows a node and an edge that were removed, the target has lost a node. -/
def spoiledCopy : List (Nat × Op) :=
  [(0, .newNode ["A"] [("k", .str "v")]), (0, .detachRemove 0), (0, .newNode ["B"] [("k", .str "w")]), (0, .newEdge 1 1 "e" [("x", .int 1)]),
   (0, .newEdge 1 1 "f" []), (0, .setEdgeLabel 2 "f"), (0, .removeEdge 2), (0, .newNode ["C"] []), (0, .detachRemove 1),
   (1, .newNode [] []), (1, .newNode [] []), (1, .detachRemove 6), (1, .newNode [] [])]

example : WSpec.ValidHistory spoiledCopy ∧ (WSpec.listing 0 spoiledCopy).nodes = [1, 4] ∧ (WSpec.run spoiledCopy 0).nodes = [4] ∧
    ((World.run spoiledCopy).map (fun W => ((W.view 0).getEdges, (W.view 1).getEdges))) = some (some [2], some []) ∧
    (WSpec.run spoiledCopy 0).edges = [] ∧ (WSpec.run spoiledCopy 1).nodes = [5, 7] ∧
    (([(1, 8), (4, 9)].map Prod.snd).foldl Listing.create (WSpec.listing 1 spoiledCopy)).nodes = [5] := by
  decide +kernel

/-- Graph 0 has a cycle, a self-loop and parallel edges; graph 1 has content of its own. -/
def copyOps : List (Nat × Op) :=
  [(0, .newNode ["A"] [("k", .str "v")]), (1, .newNode ["B"] []), (0, .newNode ["A"] []), (0, .newNode [] []),
   (0, .newEdge 0 2 "e" [("w", .int 1)]), (0, .newEdge 2 0 "e" []), (0, .newEdge 0 2 "e" []), (0, .newEdge 2 2 "f" []),
   (1, .newEdge 1 1 "g" []), (0, .newNode ["Z"] []), (0, .newEdge 9 3 "h" [])]

example : WSpec.ValidHistory copyOps ∧ World.run copyOps ≠ none ∧ WSpec.Clean 0 (copyOps ++ [(0, .newNode [] [])]) ∧
    WSpec.Clean 1 (copyOps ++ [(1, .newNode [] [])]) ∧ (WSpec.run copyOps 0).nodes = [0, 2, 3, 9] ∧
    (WSpec.run copyOps 0).edges.length = 5 := by
  decide +kernel

/-- Both graphs have indexes (`indexedGraphs`), and the copy doubles the numbers. -/
example : CopyIndexable 0 1 (fun _ v => match v with | .int n => .int (2 * n) | v => v) indexedGraphs := by
  refine ⟨fun k ty _ => indexable_str (fun v h => ?_) ty, fun k ty _ => indexable_int (fun v h => ?_) ty⟩
  · rcases h with h | ⟨n, hn, w, h1, rfl⟩
    · exact (indexedGraphs_nodes h).2
    · have : n = 0 ∨ n = 2 := by
        have e : (WSpec.run indexedGraphs 0).nodes = [0, 2] := by decide +kernel
        rw [e] at hn; simpa using hn
      by_cases hk : k = "k"
      · subst hk
        have e1 : (WSpec.run indexedGraphs 0).nprop 0 "k" = some (.str "v") := rfl
        have e2 : (WSpec.run indexedGraphs 0).nprop 2 "k" = some (.str "u") := rfl
        rcases this with rfl | rfl
        · rw [e1] at h1; cases h1; exact ⟨_, rfl⟩
        · rw [e2] at h1; cases h1; exact ⟨_, rfl⟩
      · exfalso
        rcases this with rfl | rfl <;>
          simp [WSpec.run, WSpec.runFrom, indexedGraphs, WSpec.step, Spec.step, WSpec.new, Spec.new, hk, Ne.symm hk, AMap.get, upd] at h1
  · rcases h with h | ⟨n, hn, w, h1, rfl⟩
    · exact (indexedGraphs_edges h).2
    · have : n = 4 := by
        have e : (WSpec.run indexedGraphs 0).edges = [4] := by decide +kernel
        rw [e] at hn; simpa using hn
      subst this
      by_cases hk : k = "x"
      · subst hk
        have e1 : (WSpec.run indexedGraphs 0).eprop 4 "x" = some (.int 2) := rfl
        rw [e1] at h1; cases h1; exact ⟨_, rfl⟩
      · exfalso
        simp [WSpec.run, WSpec.runFrom, indexedGraphs, WSpec.step, Spec.step, WSpec.new, Spec.new, hk, Ne.symm hk, AMap.get, upd] at h1

example : WSpec.ValidHistory indexedGraphs ∧ WSpec.Clean 0 indexedGraphs ∧ WSpec.Clean 1 (indexedGraphs ++ [(1, .newNode [] [])]) := by
  decide +kernel

example : NoIndex 1 copyOps ∧ NoIndex 0 copyOps := by
  constructor <;> intro op h <;> simp [copyOps] at h <;> grind

end LPG
