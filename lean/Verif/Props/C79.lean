import Verif.Proofs.RecoverCopy
import Verif.Props.C37C38
/-!
# C79: what a copy leaves behind when it panics

`CopyGraph` and `CopySubgraph` into a graph with a property index panic if a value does not suit the index, and copying into a
graph that lost its edges (C49) panics at the first edge. The program may recover and go on. `Copied` and `CopyOf` are those of
C37 and C38: the copy was made as far as it went.
-/
namespace LPG
open World State

theorem SameAnswers.shows {N E : Nat → Prop} {s s' : State} {σ : Spec} (h : SameAnswers N E s s') (hs : Shows s σ)
    (hN : ∀ n ∈ σ.nodes, N n) (hE : ∀ e ∈ σ.edges, E e) : Shows s' σ where
  nodes := h.getNodes.trans hs.nodes
  edges := by rw [h.getEdges]; exact hs.edges
  numNodes := h.numNodes.trans hs.numNodes
  numEdges := h.numEdges.trans hs.numEdges
  labels := fun n hn => by rw [h.labels n (hN n hn)]; exact hs.labels n hn
  nprop := fun n hn k => by rw [h.nodeProperty n (hN n hn)]; exact hs.nprop n hn k
  ends := fun e he => by rw [(h.ends e (hE e he)).1, (h.ends e (hE e he)).2]; exact hs.ends e he
  label := fun e he => by rw [h.edgeLabel e (hE e he)]; exact hs.label e he
  eprop := fun e he k => by rw [h.edgeProperty e (hE e he)]; exact hs.eprop e he k
  outgoing := fun n hn => by rw [h.nodeEdges n (hN n hn)]; exact hs.outgoing n hn
  incoming := fun n hn => by rw [h.nodeEdges n (hN n hn)]; exact hs.incoming n hn
  distinct := hs.distinct
  closed := hs.closed

theorem World.Left.copied {ops : List (Nat × Op)} {W W' : World} (hv : WSpec.ValidHistory ops) (hr : World.run ops = some W)
    {m0 : List (Nat × Nat)} {f : String → Value → Value} {s t : Nat} {ω : WSpec} {m : AMap Nat Nat} {es : List Nat}
    (h : Left m0 ((W.view t).getEdges ≠ none) (WSpec.Clean t (ops ++ [(t, .newNode [] [])])) f s t (W.bareAt t) (WSpec.run ops)
      W' ω m es) : Copied ops t W W' (ω t) m ∧ CopyInto m0 f (WSpec.run ops s) (WSpec.run ops t) (ω t) m es := by
  have r := Rep.init.runFrom hv hr
  have hsh : Showing (W.bareAt t) (WSpec.run ops) t (WSpec.listing t ops) := by
    have := worldShowing hv hr t
    refine ⟨?_, this.own⟩
    rw [view_bareAt]; exact this.shows
  -- the other graphs
  have oth : ∀ g, g ≠ t → SameAnswers (W.N g) (W.E g) (W.view g) (W'.view g) → WSpec.Clean g ops →
      Shows (W'.view g) (WSpec.run ops g) := fun g hg hs hc =>
    hs.shows (C51_partial hv hr hc) (fun n hn => r.ownN g n hn) (fun e he => r.ownE g e he)
  cases h with
  | made c =>
    have same : ∀ g, g ≠ t → SameAnswers (W.N g) (W.E g) (W.view g) (W'.view g) := by
      intro g hg
      have := c.same (r.bareAt t).inv hg
      rw [view_bareAt_other _ hg, view_bareAt_other _ hg] at this
      exact this
    refine ⟨⟨?_, ?_, fun h => ?_, same, fun g hg => oth g hg (same g hg), ?_⟩, c.copy⟩
    · have := (c.rep.core t).holds
      rw [view_bareAt] at this
      exact ⟨this.numNodes, this.labels, this.nprop, this.ends, this.label, this.eprop, this.outgoing, this.incoming, this.distinct,
        this.closed⟩
    · have := c.getNodes hsh
      rw [view_bareAt] at this
      exact this
    · obtain ⟨d, R, l, -⟩ := c.lists h
      have := c.rep.shows l
      rw [view_bareAt] at this
      exact ⟨this.nodes, this.edges, this.numNodes, this.numEdges, this.labels, this.nprop, this.ends, this.label, this.eprop,
        this.outgoing, this.incoming, this.distinct, this.closed⟩
    · have := (c.rep.core t).nNodup
      rw [c.copy.nodes, List.nodup_append] at this
      exact this.2.1
  | @lost W1 _ _ _ c hnil =>
    have vt : (W1.store t (W1.view t).leftNewEdge).view t = (W1.view t).leftNewEdge := by
      simp [view, store, leftNewEdge]
    have same : ∀ g, g ≠ t → SameAnswers (W.N g) (W.E g) (W.view g) ((W1.store t (W1.view t).leftNewEdge).view g) := by
      intro g hg
      have ag := (c.frame g hg).1
      rw [view_bareAt_other _ hg, view_bareAt_other _ hg] at ag
      have e1 : (W1.store t (W1.view t).leftNewEdge).view g = { W1.view g with idBase := W1.heap.idBase + 1 } := by
        simp [view, store, leftNewEdge, upd_other _ _ hg]
      rw [e1]
      refine Agree.answers ⟨ag.allNodes, ag.allEdges, ag.byLabel, ag.nodeIx, ag.edgeIx, ag.node, ag.edge⟩ (r.inv.closed g)
        (fun x hx => r.inv.nodeLt x g hx) (fun x hx => r.inv.edgeLt x (edge_of hx).1) ?_
      exact Nat.le_succ_of_le c.base
    have ct : Core (W1.view t).bare (ω t) := by
      have := c.rep.core t
      rw [view_bareAt] at this
      exact this
    refine ⟨⟨?_, ?_, fun h => ?_, same, fun g hg => oth g hg (same g hg), ?_⟩, c.copy⟩
    · rw [vt]
      have := ct.lost.holds
      exact ⟨this.numNodes, this.labels, this.nprop, this.ends, this.label, this.eprop, this.outgoing, this.incoming, this.distinct,
        this.closed⟩
    · rw [vt]
      have n1 := (c.shown _ hsh).shows
      rw [view_bareAt] at n1
      exact NShows.getNodes (s := (W1.view t).leftNewEdge.bare) ct.lost (n1.later (Nat.le_succ _))
    · have hc : WSpec.Clean t ops := cleanFrom_prefix h
      have := c.ends (clean_edges hv hr hc)
      rw [view_bareAt] at this
      have hm : (W1.view t).AllMono := by
        have := c.ordered.edges t
        rw [view_bareAt] at this
        exact this
      exact absurd ((nilEdge_iff hm).2 hnil) this
    · have := (c.rep.core t).nNodup
      rw [c.copy.nodes, List.nodup_append] at this
      exact this.2.1

/-- the edges of graph `s` that `CopyGraph` goes through and whose two ends `GetNodes` shows -/
def copyEdgesOf (ops : List (Nat × Op)) (W : World) (s : Nat) : List Nat :=
  ((W.view s).getEdges.getD []).filter
    (fun e => (WSpec.run ops s).src e ∈ (WSpec.listing s ops).nodes ∧ (WSpec.run ops s).dst e ∈ (WSpec.listing s ops).nodes)

theorem tryCopyGraph_fine {ops : List (Nat × Op)} {W : World} (hv : WSpec.ValidHistory ops) (hr : World.run ops = some W)
    {s t : Nat} (hst : s ≠ t) (o : MapOrder) (f : String → Value → Value) :
    (W.tryCopyGraph o s t f = none → (W.view s).getEdges = none) ∧ ∀ r, W.tryCopyGraph o s t f = some r → ∃ σ' m' es',
      Copied ops t W r.1 σ' m' ∧ CopyOf f (WSpec.run ops s) (WSpec.run ops t) σ' m' es' ∧
      m'.map Prod.fst <+: (WSpec.listing s ops).nodes ∧ es' <+: copyEdgesOf ops W s ∧
      (r.2.2 = false → r.2.1 = m' ∧ m'.map Prod.fst = (WSpec.listing s ops).nodes ∧ es' = copyEdgesOf ops W s) ∧
      (r.2.2 = true → (es' = [] ∧ ∃ p, m' = r.2.1 ++ [p]) ∨
        m' = r.2.1 ∧ m'.map Prod.fst = (WSpec.listing s ops).nodes ∧ ((W.view t).getEdges ≠ none → es' ≠ [])) := by
  have r0 := Rep.init.runFrom hv hr
  have hn := worldListing hv hr s
  have hw : walk (W.bareAt t).heap.nptr.next (W.bareAt t).heap.idBase ((W.bareAt t).root s).allNodes.head =
      some (WSpec.listing s ops).nodes := by
    have e1 : (W.bareAt t).root s = W.root s := by simp [bareAt, upd_other _ _ hst]
    rw [e1]; exact hn
  have e1 : ((W.bareAt t).root s).allNodes.head = (W.root s).allNodes.head := by simp [bareAt, upd_other _ _ hst]
  obtain ⟨⟨W1, m1, b⟩, h1, ω1, m2, h2, h3, h4⟩ := tryCopyNodes_left o hst _ _ _ [] hw (by simpa using walk_nodup hw)
    (listed_nodes (g := s) r0.inv hn) rfl (bareStart hv hr s t f (m0 := []) (by simp) (by simp))
  rw [e1] at h1
  simp only [List.nil_append] at h2 h3 h4
  unfold tryCopyGraph
  rw [h1]
  cases b with
  | true =>
    obtain ⟨k1, p, k2⟩ := h4 rfl
    refine ⟨by simp, fun r h => ?_⟩
    cases h
    obtain ⟨g1, g2⟩ := (Left.made h2).copied hv hr
    refine ⟨_, m2, [], g1, g2, k1, by simp, (fun h => nomatch h), fun _ => .inl ⟨rfl, p, k2⟩⟩
  | false =>
    obtain ⟨rfl, k2⟩ := h3 rfl
    have hsame : (W1.view s).getEdges = (W.view s).getEdges := by
      have := (h2.same (r0.bareAt t).inv hst).getEdges
      rw [view_bareAt_other _ hst, view_bareAt_other _ hst] at this
      exact this
    simp only [hsame]
    cases he : (W.view s).getEdges with
    | none => simp
    | some es =>
      have he' : ((W.bareAt t).view s).getEdges = some es := by rw [view_bareAt_other _ hst]; exact he
      obtain ⟨⟨W2, b⟩, j1, ω2, es', j2, j3, j4, j5⟩ := tryCopyEdges_left o es (listed_edges (g := s) (r0.bareAt t).inv he') h2
      simp only [List.nil_append] at j2 j3
      simp only [j1]
      refine ⟨by simp, fun r h => ?_⟩
      cases h
      obtain ⟨g1, g2⟩ := j2.copied hv hr
      have e2 : copyEdgesOf ops W s = es.filter (fun e => (WSpec.run ops s).src e ∈ m2.map Prod.fst ∧
          (WSpec.run ops s).dst e ∈ m2.map Prod.fst) := by
        simp only [copyEdgesOf, he, Option.getD_some, k2]
      rw [e2]
      exact ⟨_, m2, es', g1, g2, by rw [k2]; exact List.prefix_refl _, j4, fun h => ⟨rfl, k2, (j3 h).1⟩,
        fun h => .inr ⟨rfl, k2, j5 h⟩⟩

/-- When `CopyGraph` panics, the target holds its old content and copies of the first nodes of the source, or of all of its nodes
and of the first edges. Every other graph, the source included, answers all queries as before. The map `m` that the call was
building lacks the last copied node if a node made the index panic; this copy is in the target. -/
theorem C79 {ops : List (Nat × Op)} {W W' : World} (hv : WSpec.ValidHistory ops) (hr : World.run ops = some W) {s t : Nat}
    (hst : s ≠ t) {o : MapOrder} {f : String → Value → Value} {m : AMap Nat Nat} (h : W.tryCopyGraph o s t f = some (W', m, true)) :
    ∃ σ' m' es', Copied ops t W W' σ' m' ∧ CopyOf f (WSpec.run ops s) (WSpec.run ops t) σ' m' es' ∧
      m'.map Prod.fst <+: (WSpec.listing s ops).nodes ∧ es' <+: copyEdgesOf ops W s ∧
      ((es' = [] ∧ ∃ p, m' = m ++ [p]) ∨
        m' = m ∧ m'.map Prod.fst = (WSpec.listing s ops).nodes ∧ ((W.view t).getEdges ≠ none → es' ≠ [])) := by
  obtain ⟨σ', m', es', h1, h2, h3, h4, -, h5⟩ := (tryCopyGraph_fine hv hr hst o f).2 _ h
  exact ⟨σ', m', es', h1, h2, h3, h4, h5 rfl⟩

/-- `CopyGraph` between two graphs returns or panics, unless the edges of the source cannot be enumerated (C04). -/
theorem C79_returns {ops : List (Nat × Op)} {W : World} (hv : WSpec.ValidHistory ops) (hr : World.run ops = some W) {s t : Nat}
    (hst : s ≠ t) (he : (W.view s).getEdges ≠ none) (o : MapOrder) (f : String → Value → Value) : W.tryCopyGraph o s t f ≠ none :=
  fun h => he ((tryCopyGraph_fine hv hr hst o f).1 h)

/-- When it returns, everything was copied. -/
theorem C79_fine {ops : List (Nat × Op)} {W W' : World} (hv : WSpec.ValidHistory ops) (hr : World.run ops = some W) {s t : Nat}
    (hst : s ≠ t) {o : MapOrder} {f : String → Value → Value} {m : AMap Nat Nat} (h : W.tryCopyGraph o s t f = some (W', m, false)) :
    ∃ σ', Copied ops t W W' σ' m ∧ CopyOf f (WSpec.run ops s) (WSpec.run ops t) σ' m (copyEdgesOf ops W s) ∧
      m.map Prod.fst = (WSpec.listing s ops).nodes := by
  obtain ⟨σ', m', es', h1, h2, h3, h4, h6, -⟩ := (tryCopyGraph_fine hv hr hst o f).2 _ h
  obtain ⟨rfl, k2, rfl⟩ := h6 rfl
  exact ⟨σ', h1, h2, k2⟩

/-- `CopySubgraph` with a map that holds `m0` returns or panics. When it panics, the target holds its old content and copies of
nodes that can be reached from `n`, each once, and of edges that leave these, each once. The map holds what it held and the
copies, without the last one if that one made the index panic. Every other graph answers all queries as before. Both graphs may be one. -/
theorem C79_sub {ops : List (Nat × Op)} {W : World} (hv : WSpec.ValidHistory ops) (hr : World.run ops = some W)
    {s t n : Nat} (hn : n ∈ (WSpec.run ops s).nodes) {m0 : AMap Nat Nat} (hk : (m0.map Prod.fst).Nodup)
    (hm : ∀ p ∈ m0, p.2 ∈ (WSpec.run ops t).nodes) (o : MapOrder) (f : String → Value → Value) :
    ∃ W' m b, tryCopySubgraph o t f (W, m0) n = some ((W', m), b) ∧ (b = true → ∃ σ' m' es', Copied ops t W W' σ' m' ∧
      CopyInto m0 f (WSpec.run ops s) (WSpec.run ops t) σ' m' es' ∧ ((m0 ++ m').map Prod.fst).Nodup ∧
      (∀ p ∈ m', (WSpec.run ops s).ReachOff (m0.map Prod.fst) n p.1) ∧ es'.Nodup ∧
      (∀ e ∈ es', e ∈ (WSpec.run ops s).edges ∧ (WSpec.run ops s).src e ∈ m'.map Prod.fst) ∧
      ∃ m1, m = m0 ++ m1 ∧ ((∃ p, m' = m1 ++ [p]) ∨ m1 = m' ∧ ((W.view t).getEdges ≠ none → es' ≠ []))) := by
  have r0 := (Rep.init.runFrom hv hr).bareAt t
  obtain ⟨⟨⟨W', m⟩, b⟩, h1, ω', m2, es2, -, h3⟩ := tryCopySubgraph_left o r0 (fun e he => ((r0.core s).ends e he).2) _ (Nat.lt_succ_self _) hn
    (bareStart hv hr s t f hk hm)
  simp only [List.append_nil, List.nil_append] at h1 h3
  refine ⟨W', m, b, h1, fun hb => ?_⟩
  obtain ⟨g1, g2, m3, g3, g4⟩ := h3 hb
  obtain ⟨k1, k2⟩ := g1.copied hv hr
  exact ⟨_, m2, es2, k1, k2, g1.keys, g2.reach, g2.nodup, g2.edges, m3, g3, g4⟩

/-! ## The copies of C37 and C38 are those that do not panic -/

theorem World.cloneNode_same {W : World} {t n : Nat} {f : String → Value → Value} {r : World × Nat} :
    W.cloneNode t n f = some r ↔ W.tryCloneNode .listed t n f = (r.1, r.2, false) := by
  have e : W.cloneNode t n f = (Indexes.addAll W.heap.idBase (cloneProps f (W.heap.nProps n)) (W.root t).nodeIx).map (fun ixs =>
      ({ W with nodeGraph := upd W.nodeGraph W.heap.idBase (some t) }.store t
        { ((W.view t).tryNewNode (W.heap.nLabels n) (cloneProps f (W.heap.nProps n))).1 with nodeIx := ixs }, W.heap.idBase)) := by
    have h0 : (W.view t).nodeIx = (W.root t).nodeIx := rfl
    have h1 : (W.view t).idBase = W.heap.idBase := rfl
    unfold cloneNode State.newNode State.tryNewNode
    simp only [h0, h1]
    cases Indexes.addAll W.heap.idBase (cloneProps f (W.heap.nProps n)) (W.root t).nodeIx <;> rfl
  rw [e]
  unfold tryCloneNode
  simp only [MapOrder.listed]
  rcases hi : Indexes.tryAddAll W.heap.idBase (cloneProps f (W.heap.nProps n)) (W.root t).nodeIx with ⟨ixs, _ | _⟩
  · rw [Indexes.tryAddAll_ok.2 hi]
    simp [Prod.ext_iff]
  · have : Indexes.addAll W.heap.idBase (cloneProps f (W.heap.nProps n)) (W.root t).nodeIx = none := by
      cases h : Indexes.addAll W.heap.idBase (cloneProps f (W.heap.nProps n)) (W.root t).nodeIx with
      | none => rfl
      | some a => rw [Indexes.tryAddAll_ok.1 h] at hi; cases hi
    rw [this]
    simp

theorem State.newEdge_tries {s : State} {a b : Nat} {l : String} {ps : Props} : s.newEdge a b l ps =
    (s.tryNewEdge a b l ps).bind (fun r => (Indexes.addAll s.idBase ps s.edgeIx).map (fun ixs => { r.1 with edgeIx := ixs })) := by
  unfold State.newEdge State.tryNewEdge
  simp only
  split
  · rename_i h; simp only [h, Option.bind_none]
  · rename_i h
    simp only [h]
    split
    · rename_i h; simp only [h, Option.bind_none]
    · rename_i s1 hs1
      simp only [hs1]
      obtain ⟨p1, p2, im, om, rfl⟩ := connect_frame hs1
      simp only [Option.bind_some]
      cases Indexes.addAll s.idBase ps s.edgeIx <;> rfl

theorem World.cloneEdge_same {W : World} {t e : Nat} {a b : Option Nat} {f : String → Value → Value} {r : World × Nat} :
    W.cloneEdge t a b e f = some r ↔ W.tryCloneEdge .listed t a b e f = some (r.1, r.2, false) := by
  unfold cloneEdge tryCloneEdge
  rcases a with _ | a <;> rcases b with _ | b <;> simp only [MapOrder.listed]
  · simp
  · simp
  · simp
  by_cases ha : W.nodeGraph a ≠ some t
  · simp [ha]
  by_cases hb : W.nodeGraph b ≠ some t
  · simp [ha, hb]
  simp only [ha, hb, if_false]
  rw [newEdge_tries]
  have h0 : (W.view t).edgeIx = (W.root t).edgeIx := rfl
  have h1 : (W.view t).idBase = W.heap.idBase := rfl
  rw [h0, h1]
  cases (W.view t).tryNewEdge a b (W.heap.eLabel e) (cloneProps f (W.heap.eProps e)) with
  | none =>
    simp only [Option.bind_none, reduceCtorEq, false_iff]
    split <;> simp
  | some q =>
    simp only [Option.bind_some]
    rcases hi : Indexes.tryAddAll W.heap.idBase (cloneProps f (W.heap.eProps e)) (W.root t).edgeIx with ⟨ixs, _ | _⟩
    · rw [Indexes.tryAddAll_ok.2 hi]
      simp [Prod.ext_iff]
    · have : Indexes.addAll W.heap.idBase (cloneProps f (W.heap.eProps e)) (W.root t).edgeIx = none := by
        cases h : Indexes.addAll W.heap.idBase (cloneProps f (W.heap.eProps e)) (W.root t).edgeIx with
        | none => rfl
        | some a => rw [Indexes.tryAddAll_ok.1 h] at hi; cases hi
      rw [this]
      simp

theorem World.copyEdge_same {W : World} {t e : Nat} {f : String → Value → Value} {m : AMap Nat Nat} {r : World × Nat} :
    W.copyEdge e t f m = some r ↔ W.tryCopyEdge .listed e t f m = some (r.1, r.2, false) := cloneEdge_same

theorem World.copyNodes_same {t : Nat} {f : String → Value → Value} {W : World} {nxt : Option Nat} {m : AMap Nat Nat}
    {r : World × AMap Nat Nat} : copyNodes t f W nxt m = some r ↔ tryCopyNodes .listed t f W nxt m = some (r.1, r.2, false) := by
  constructor
  · refine copyNodes.partial_correctness t f
      (motive := fun W nxt m r => tryCopyNodes .listed t f W nxt m = some (r.1, r.2, false)) ?_ W nxt m r
    intro rec ih W nxt m r hr
    cases nxt with
    | none => cases hr; rw [tryCopyNodes]
    | some n =>
      simp only [Option.bind_eq_bind] at hr
      obtain ⟨q, h1, hr⟩ := Option.bind_eq_some_iff.1 hr
      rw [tryCopyNodes]
      simp only [cloneNode_same.1 h1, Bool.false_eq_true, if_false]
      exact ih _ _ _ _ hr
  · intro h
    refine tryCopyNodes.partial_correctness .listed t f
      (motive := fun W nxt m r => r.2.2 = false → copyNodes t f W nxt m = some (r.1, r.2.1)) ?_ W nxt m _ h rfl
    intro rec ih W nxt m r hr hb
    cases nxt with
    | none => cases hr; rw [copyNodes]
    | some n =>
      simp only at hr
      split at hr
      · cases hr; cases hb
      · rename_i hf
        rw [copyNodes]
        have : W.cloneNode t n f = some ((W.tryCloneNode .listed t n f).1, (W.tryCloneNode .listed t n f).2.1) :=
          cloneNode_same.2 (Prod.ext rfl (Prod.ext rfl (by simpa using hf)))
        simp only [this, Option.bind_eq_bind, Option.bind_some]
        exact ih _ _ _ _ hr hb

theorem World.copyEdges_same {t : Nat} {f : String → Value → Value} {m : AMap Nat Nat} {W' : World} : ∀ (es : List Nat) (W : World),
    copyEdges t f m W es = some W' ↔ tryCopyEdges .listed t f m W es = some (W', false)
  | [], W => by simp [copyEdges, tryCopyEdges]
  | e :: es, W => by
    unfold copyEdges tryCopyEdges
    split
    · exact copyEdges_same es W
    · split
      · exact copyEdges_same es W
      · cases h : W.copyEdge e t f m with
        | some r =>
          rw [copyEdge_same.1 h]
          exact copyEdges_same es r.1
        | none =>
          cases h2 : W.tryCopyEdge .listed e t f m with
          | none => simp
          | some r =>
            obtain ⟨W1, e1, _ | _⟩ := r
            · rw [(copyEdge_same (r := (W1, e1))).2 h2] at h; cases h
            · simp

/-- `CopyGraph` as in C37, where a panic has no outcome, is the `CopyGraph` that leaves the world behind, if it does not panic and
the indexes see the properties in the order listed. -/
theorem C79_same {W : World} {s t : Nat} {f : String → Value → Value} {r : World × AMap Nat Nat} :
    W.copyGraph s t f = some r ↔ W.tryCopyGraph .listed s t f = some (r.1, r.2, false) := by
  unfold copyGraph tryCopyGraph
  simp only [Option.bind_eq_bind]
  cases h : tryCopyNodes .listed t f W (W.root s).allNodes.head [] with
  | none =>
    cases h2 : copyNodes t f W (W.root s).allNodes.head [] with
    | none => simp
    | some q => rw [copyNodes_same.1 h2] at h; cases h
  | some q =>
    obtain ⟨W1, m, _ | _⟩ := q
    · rw [(copyNodes_same (r := (W1, m))).2 h]
      simp only [Option.bind_some]
      cases (W1.view s).getEdges with
      | none => simp
      | some es =>
        simp only [Option.bind_some]
        cases h3 : copyEdges t f m W1 es with
        | some W2 => simp [(copyEdges_same es W1).1 h3, Prod.ext_iff]
        | none =>
          cases h4 : tryCopyEdges .listed t f m W1 es with
          | none => simp
          | some q =>
            obtain ⟨W2, _ | _⟩ := q
            · rw [(copyEdges_same es W1).2 h4] at h3; cases h3
            · simp
    · cases h2 : copyNodes t f W (W.root s).allNodes.head [] with
      | none => simp
      | some q => rw [copyNodes_same.1 h2] at h; cases h

/-- The same for `CopySubgraph` and C38. -/
theorem C79_sub_same {t : Nat} {f : String → Value → Value} {st r : World × AMap Nat Nat} {n : Nat} :
    copySubgraph t f st n = some r ↔ tryCopySubgraph .listed t f st n = some (r, false) := by
  constructor
  · refine copySubgraph.partial_correctness t f
      (motive := fun st n r => tryCopySubgraph .listed t f st n = some (r, false)) ?_ st n r
    intro rec ih st n r hr
    rw [tryCopySubgraph_eq]
    split at hr
    · rename_i hg
      cases hr; rw [if_pos hg]
    · rename_i hg
      rw [if_neg hg]
      simp only [Option.bind_eq_bind] at hr
      obtain ⟨⟨W1, n'⟩, h1, hr⟩ := Option.bind_eq_some_iff.1 hr
      obtain ⟨es, h2, hr⟩ := Option.bind_eq_some_iff.1 hr
      simp only [cloneNode_same.1 h1, Bool.false_eq_true, if_false, h2, Option.bind_some]
      have key : ∀ (es : List Nat) (st r : World × AMap Nat Nat),
          es.foldlM (fun st e => (rec st (st.1.heap.eTo e)).bind
            (fun st => (st.1.copyEdge e t f st.2).bind (fun r => pure (r.1, st.2)))) st = some r →
          es.foldlM (trySubStep .listed t f) (st, false) = some (r, false) := by
        intro es
        induction es with
        | nil => intro st r hr; cases hr; rfl
        | cons e es ihs =>
          intro st r hr
          rw [List.foldlM_cons] at hr ⊢
          obtain ⟨st1, g1, hr⟩ := Option.bind_eq_some_iff.1 hr
          obtain ⟨st2, g2, g1⟩ := Option.bind_eq_some_iff.1 g1
          obtain ⟨⟨W3, e'⟩, g3, g1⟩ := Option.bind_eq_some_iff.1 g1
          cases g1
          have : trySubStep .listed t f (st, false) e = some ((W3, st2.2), false) := by
            simp only [trySubStep, Bool.false_eq_true, if_false, ih _ _ _ g2, Option.bind_some, copyEdge_same.1 g3]
          simp only [this, Option.bind_eq_bind, Option.bind_some]
          exact ihs _ r hr
      exact key es _ r hr
  · intro h
    refine tryCopySubgraph.partial_correctness .listed t f
      (motive := fun st n r => r.2 = false → copySubgraph t f st n = some r.1) ?_ st n _ h rfl
    intro rec ih st n r hr hb
    rw [copySubgraph]
    split at hr
    · rename_i hg
      cases hr; rw [if_pos hg]
    · rename_i hg
      rw [if_neg hg]
      split at hr
      · cases hr; cases hb
      · rename_i hf
        simp only [Option.bind_eq_bind] at hr ⊢
        obtain ⟨es, h2, hr⟩ := Option.bind_eq_some_iff.1 hr
        have : st.1.copyNode n t f = some ((st.1.tryCloneNode .listed t n f).1, (st.1.tryCloneNode .listed t n f).2.1) :=
          cloneNode_same.2 (Prod.ext rfl (Prod.ext rfl (by simpa using hf)))
        simp only [this, Option.bind_some, h2]
        have stop : ∀ (es : List Nat) (a : World × AMap Nat Nat), es.foldlM (fun (a : (World × AMap Nat Nat) × Bool) e =>
            if a.2 = true then pure a else (rec a.1 (a.1.1.heap.eTo e)).bind (fun b =>
              if b.2 = true then pure b else (b.1.1.tryCopyEdge .listed e t f b.1.2).bind (fun r => pure ((r.1, b.1.2), r.2.2))))
              (a, true) = some (a, true) := by
          intro es
          induction es with
          | nil => intro a; rfl
          | cons e es ihs => intro a; rw [List.foldlM_cons]; exact ihs a
        have key : ∀ (es : List Nat) (st : World × AMap Nat Nat) (r : (World × AMap Nat Nat) × Bool), r.2 = false →
            es.foldlM (fun (a : (World × AMap Nat Nat) × Bool) e =>
              if a.2 = true then pure a else (rec a.1 (a.1.1.heap.eTo e)).bind (fun b =>
                if b.2 = true then pure b else (b.1.1.tryCopyEdge .listed e t f b.1.2).bind (fun r => pure ((r.1, b.1.2), r.2.2))))
              (st, false) = some r →
            es.foldlM (fun st e => (copySubgraph t f st (st.1.heap.eTo e)).bind
              (fun st => (st.1.copyEdge e t f st.2).bind (fun r => pure (r.1, st.2)))) st = some r.1 := by
          intro es
          induction es with
          | nil => intro st r _ hr; cases hr; rfl
          | cons e es ihs =>
            intro st r hb hr
            rw [List.foldlM_cons] at hr ⊢
            obtain ⟨⟨st1, b1⟩, g1, hr⟩ := Option.bind_eq_some_iff.1 hr
            cases b1 with
            | true => rw [stop] at hr; cases hr; cases hb
            | false =>
              simp only [Bool.false_eq_true, if_false] at g1
              obtain ⟨⟨st2, b2⟩, g2, g1⟩ := Option.bind_eq_some_iff.1 g1
              cases b2 with
              | true => cases g1
              | false =>
                simp only [Bool.false_eq_true, if_false] at g1
                obtain ⟨⟨W3, e', b3⟩, g3, g1⟩ := Option.bind_eq_some_iff.1 g1
                cases g1
                simp only [ih _ _ _ g2 rfl, Option.bind_eq_bind, Option.bind_some, (copyEdge_same (r := (W3, e'))).2 g3]
                exact ihs _ r hb hr
        exact key es _ r hb hr

/-! ## A graph copied to itself -/

/-- While a graph is copied to itself, there is always a node left, so the loop ends only with a panic. -/
theorem World.selfCopy {o : MapOrder} {t : Nat} {f : String → Value → Value} {W : World} {nxt : Option Nat} {m : AMap Nat Nat}
    {r : World × AMap Nat Nat × Bool} (h : tryCopyNodes o t f W nxt m = some r) :
    ∀ {ω : WSpec} {pre post : List Nat} {a b : Nat}, nxt = some a → Rep (W.bareAt t) ω → Ready (W.bareAt t) ω t →
      (ω t).nodes = pre ++ a :: b :: post →
      r.2.2 = true ∧ ∃ l ls, Rep (r.1.bareAt t) (WSpec.runFrom ω ((l :: ls).map (fun x : List String × Props => (t, Op.newNode x.1 x.2)))) := by
  revert h
  apply tryCopyNodes.partial_correctness o t f (motive := fun W nxt m r => ∀ {ω : WSpec} {pre post : List Nat} {a b : Nat},
      nxt = some a → Rep (W.bareAt t) ω → Ready (W.bareAt t) ω t → (ω t).nodes = pre ++ a :: b :: post →
      r.2.2 = true ∧ ∃ l ls, Rep (r.1.bareAt t) (WSpec.runFrom ω ((l :: ls).map (fun x : List String × Props => (t, Op.newNode x.1 x.2)))))
  intro rec ih W nxt m q h ω pre post a b hx r l hn
  subst hx
  simp only at h
  have ha : a ∈ (ω t).nodes := by rw [hn]; simp
  have ct := r.core t
  obtain ⟨hv, hl, hp, hst⟩ := cloneNode_step r (N := (· ∈ (ω t).nodes)) (E := (· ∈ (ω t).edges)) (τ := ω t)
    ⟨ct.labels, ct.nprops, ct.eattr, ct.eprops⟩ (t := t) (f := f) ha
  obtain ⟨hst, _⟩ := hst _ _ (tryCloneNode_bare o W t a f)
  obtain ⟨_, r1, hs1, _⟩ := r.step hv hst
  have l1 := l.newNode r hv hst
  split at h
  · cases h
    exact ⟨rfl, (_, _), [], r1⟩
  · have hnx : W.heap.nptr.next a = some b := by
      obtain ⟨_, _, l, _⟩ := l
      obtain ⟨_, hvis, _⟩ := l.nodes.vis
      have hseg := hvis.seg
      rw [hn] at hseg
      have := (seg_append.1 hseg).2
      simp only [Seg, NPtr.slot] at this
      exact this.2.1
    have hlast : ∃ b' post', b :: post ++ [(ω t).next] = b :: b' :: post' := by
      cases post with
      | nil => exact ⟨_, _, rfl⟩
      | cons b' post => exact ⟨_, _, rfl⟩
    obtain ⟨b', post', hb'⟩ := hlast
    have hn1 : ((ω.step t (.newNode ((W.bareAt t).heap.nLabels a) (cloneProps f ((W.bareAt t).heap.nProps a)))) t).nodes =
        (pre ++ [a]) ++ b :: b' :: post' := by
      simp only [WSpec.step, if_true, Spec.step, hn]
      simp only [List.append_assoc, List.cons_append, List.nil_append] at hb' ⊢
      rw [hb']
    rw [hnx] at h
    obtain ⟨k1, l', ls', k2⟩ := ih _ _ _ _ h rfl r1 l1 hn1
    exact ⟨k1, (_, _), l' :: ls', k2⟩

theorem wspec_append {ops2 : List (Nat × Op)} : ∀ (ops1 : List (Nat × Op)) (ω : WSpec),
    WSpec.runFrom ω (ops1 ++ ops2) = WSpec.runFrom (WSpec.runFrom ω ops1) ops2
  | [], _ => rfl
  | (g, op) :: ops1, ω => wspec_append ops1 (ω.step g op)

/-- `CopyGraph` of a graph with two or more nodes to itself never returns. It panics at an index or goes on for ever. If it panics,
the graph has what it had and some more nodes. This is `C37_self` without the condition on indexes. -/
theorem C79_self {ops : List (Nat × Op)} {W : World} (hv : WSpec.ValidHistory ops) (hr : World.run ops = some W)
    {t : Nat} (ht : WSpec.Clean t (ops ++ [(t, .newNode [] [])])) (h2 : 2 ≤ (WSpec.run ops t).nodes.length) (f : String → Value → Value) :
    W.copyGraph t t f = none ∧ ∀ o r, W.tryCopyGraph o t t f = some r → r.2.2 = true ∧
      ∃ l ls, Holds (r.1.view t) (WSpec.run (ops ++ (l :: ls).map (fun x : List String × Props => (t, Op.newNode x.1 x.2))) t) := by
  have key : ∀ o r, W.tryCopyGraph o t t f = some r → r.2.2 = true ∧
      ∃ l ls, Holds (r.1.view t) (WSpec.run (ops ++ (l :: ls).map (fun x : List String × Props => (t, Op.newNode x.1 x.2))) t) := by
    intro o r h
    have c0 := bareStart hv hr t t f (m0 := []) (by simp) (by simp)
    obtain ⟨a, b, post, hn⟩ : ∃ a b post, (WSpec.run ops t).nodes = a :: b :: post := by
      match hnn : (WSpec.run ops t).nodes, h2 with
      | a :: b :: post, _ => exact ⟨a, b, post, rfl⟩
    have hh : (W.root t).allNodes.head = some a := by
      obtain ⟨_, _, l, _⟩ := c0.lists ht
      obtain ⟨_, hvis, _⟩ := l.nodes.vis
      have := hvis.head
      rw [hn, view_bareAt] at this
      exact this
    unfold tryCopyGraph at h
    cases hc : tryCopyNodes o t f W (W.root t).allNodes.head [] with
    | none => rw [hc] at h; cases h
    | some q =>
      obtain ⟨k1, l, ls, k2⟩ := selfCopy hc (pre := []) hh c0.rep (c0.lists ht) hn
      rw [hc] at h
      obtain ⟨W1, m1, b⟩ := q
      simp only at k1 k2
      subst k1
      cases h
      refine ⟨rfl, l, ls, ?_⟩
      have := (k2.core t).holds
      rw [view_bareAt] at this
      unfold WSpec.run
      rw [wspec_append]
      exact ⟨this.numNodes, this.labels, this.nprop, this.ends, this.label, this.eprop, this.outgoing, this.incoming, this.distinct,
        this.closed⟩
  refine ⟨?_, key⟩
  cases h : W.copyGraph t t f with
  | none => rfl
  | some r => exact absurd (key _ _ (C79_same.1 h)).1 (by simp)

/-- Graph 0 has an index. -/
example : WSpec.ValidHistory indexedGraphs ∧ World.run indexedGraphs ≠ none ∧ WSpec.Clean 0 (indexedGraphs ++ [(0, .newNode [] [])]) ∧
    2 ≤ (WSpec.run indexedGraphs 0).nodes.length := by
  refine ⟨by decide +kernel, by decide +kernel, by decide +kernel, by decide +kernel⟩

/-! ## An example -/

/-- Graph 0 has three nodes, and the value of the second does not suit the index of graph 1. -/
def brokenCopyOps : List (Nat × Op) :=
  [(1, .addNodeIndex "k" .hash), (0, .newNode ["A"] [("k", .str "v")]), (0, .newNode ["B"] [("k", .other 0 false)]),
   (0, .newNode ["C"] []), (0, .newEdge 0 1 "e" []), (1, .newNode ["T"] [("k", .str "v")])]

/-- The world where the second copy is to be made. -/
def brokenCopyAt : Option World := (World.run brokenCopyOps).map (fun W => (W.tryCloneNode .listed 1 0 (fun _ v => v)).1)

/-- `CopyGraph` panics at the second node. Graph 1 lists its old node and two copies, and so does the index. The map has the first copy only. -/
theorem C79_example : WSpec.ValidHistory brokenCopyOps ∧ ∃ W W' m, World.run brokenCopyOps = some W ∧
    W.tryCopyGraph .listed 0 1 (fun _ v => v) = some (W', m, true) ∧ m = [(0, 5)] ∧ (W'.view 1).getNodes = some [4, 5, 6] ∧
    (W'.view 1).nLabels 6 = ["B"] ∧ (W'.view 1).getNodesWithProperty "k" = some [4, 5, 6] := by
  refine ⟨by decide +kernel, ?_⟩
  cases hr : World.run brokenCopyOps with
  | none => exact absurd hr (by decide +kernel)
  | some W =>
    have a1 : (World.run brokenCopyOps).map (fun W => ((W.root 0).allNodes.head, (W.tryCloneNode .listed 1 0 (fun _ v => v)).2,
      W.heap.nptr.next 0)) = some (some 0, (5, false), some 1) := by decide +kernel
    have a2 : brokenCopyAt.map (fun W => (W.tryCloneNode .listed 1 1 (fun _ v => v)).2.2) = some true := by decide +kernel
    have a3 : brokenCopyAt.map (fun W => (((W.tryCloneNode .listed 1 1 (fun _ v => v)).1.view 1).getNodes,
      ((W.tryCloneNode .listed 1 1 (fun _ v => v)).1.view 1).nLabels 6,
      ((W.tryCloneNode .listed 1 1 (fun _ v => v)).1.view 1).getNodesWithProperty "k")) =
      some (some [4, 5, 6], ["B"], some [4, 5, 6]) := by decide +kernel
    unfold brokenCopyAt at a2 a3
    rw [hr] at a1 a2 a3
    simp only [Option.map_some, Option.some.injEq, Prod.mk.injEq, Prod.ext_iff] at a1 a2 a3
    obtain ⟨b1, ⟨b2, b3⟩, b4⟩ := a1
    refine ⟨W, _, [(0, 5)], rfl, ?_, rfl, a3.1, a3.2.1, a3.2.2⟩
    unfold tryCopyGraph
    rw [b1, tryCopyNodes_cons, b3, b4, b2]
    simp only [Bool.false_eq_true, if_false]
    rw [tryCopyNodes_cons, a2]
    rfl

end LPG
