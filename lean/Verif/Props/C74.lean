import Verif.Props.C68
import Verif.Props.C49Exact
import Verif.Spec.RecoverNil
/-!
# C74: a program that recovers from every panic
-/
namespace LPG
open State

theorem NShows.later {P : NPtr} {l : NList} {N : List Nat} {b b' : Nat} {v : Listing} (h : NShows P l N b v) (hb : b ≤ b') :
    NShows P l N b' v where
  head := h.head
  links := h.links
  chain := by
    obtain ⟨pr, h1, h2⟩ := h.chain
    refine ⟨pr, h1, ?_⟩
    split
    · rename_i h3; rw [if_pos h3] at h2; exact h2
    · rename_i h3
      rw [if_neg h3] at h2
      obtain ⟨t, h4, h5⟩ := h2
      exact ⟨t, h4, ⟨Nat.lt_of_lt_of_le h5.lt hb, h5.gone, h5.hidden⟩⟩
  lost := fun c hc => by
    obtain ⟨t, h4, h5⟩ := h.lost c hc
    exact ⟨t, h4, ⟨Nat.lt_of_lt_of_le h5.lt hb, h5.gone, h5.hidden⟩⟩
  live := h.live
  gone := fun n hn => ⟨(h.gone n hn).1, Nat.lt_of_lt_of_le (h.gone n hn).2 hb⟩
  nodup := h.nodup
  fresh := h.fresh
  opened := h.opened
  closed := fun hc => by
    obtain ⟨c, cs, t, h1, h2, h3, h4⟩ := h.closed hc
    exact ⟨c, cs, t, h1, h2, ⟨Nat.lt_of_lt_of_le h3.lt hb, h3.gone, h3.hidden⟩, h4⟩

theorem Spec.foldl_made (σ : Spec) (eff : List Op) : (eff.map some).foldl Spec.stepLost σ = σ.runFrom eff := by
  induction eff generalizing σ with
  | nil => rfl
  | cons op eff ih => exact ih _

theorem Listing.fromLost_append (v : Listing) (σ : Spec) (h h' : List (Option Op)) :
    v.fromLost σ (h ++ h') = (v.fromLost σ h).fromLost (h.foldl Spec.stepLost σ) h' := by
  induction h generalizing v σ with
  | nil => rfl
  | cons op h ih =>
    cases op with
    | none => exact ih _ _
    | some op => exact ih _ _

theorem Listing.fromLost_made (v : Listing) (σ : Spec) (eff : List Op) : v.fromLost σ (eff.map some) = v.from_ σ eff := by
  induction eff generalizing v σ with
  | nil => rfl
  | cons op eff ih => exact ih _ _

/-- what holds of every state that such a program reaches -/
structure Sound (s : State) (hist : List (Option Op)) : Prop where
  core : Core s.bare (Spec.runLost hist)
  mono : Mono s.nptr s.allNodes s.idBase
  all : s.AllMono
  props : s.PropsOk
  shows : NShows s.nptr s.allNodes (Spec.runLost hist).nodes (Spec.runLost hist).next (listingLost hist)

theorem nilEdge_iff {s : State} (h : s.AllMono) : s.getEdges = none ↔ s.NilEdge := by
  have := getEdges_iff h
  unfold State.NilEdge
  grind

theorem Core.lost {s : State} {σ : Spec} (h : Core s.bare σ) : Core s.leftNewEdge.bare (σ.stepLost none) where
  next := congrArg (· + 1) h.next
  nNodup := h.nNodup
  eNodup := h.eNodup
  nLt := fun n hn => Nat.lt_succ_of_lt (h.nLt n hn)
  eLt := fun n hn => Nat.lt_succ_of_lt (h.eLt n hn)
  disj := h.disj
  labels := h.labels
  nprops := h.nprops
  eattr := h.eattr
  eprops := h.eprops
  ends := h.ends
  out := h.out
  inc := h.inc
  count := h.count

theorem Sound.lost {s : State} {hist : List (Option Op)} (h : Sound s hist) : Sound s.leftNewEdge (hist ++ [none]) := by
  have e : Spec.runLost (hist ++ [none]) = (Spec.runLost hist).stepLost none := by simp [Spec.runLost]
  refine ⟨e ▸ h.core.lost, ⟨fun x hx => Nat.lt_succ_of_lt (h.mono.head x hx), fun x hx => Nat.lt_succ_of_lt (h.mono.tail x hx),
    fun x y hx => ⟨(h.mono.next x y hx).1, Nat.lt_succ_of_lt (h.mono.next x y hx).2⟩, h.mono.prev⟩, ?_, h.props, ?_⟩
  · have := EMono.le h.all (Nat.le_succ s.idBase)
    exact ⟨this.slot, (fun p hp => by cases hp), this.only⟩
  · rw [e, listingLost, Listing.fromLost_append]
    exact h.shows.later (Nat.le_succ _)

theorem Sound.made {s s' : State} {hist : List (Option Op)} (h : Sound s hist) {op : Op} {b : Bool} {eff : List Op} {o : MapOrder}
    (hv : (Spec.runLost hist).Valid op) (hs : tryStep o s op = some (s', b)) (ha : (Spec.runLost hist).Amounts op b eff)
    (hr : runFrom s.bare eff = some s'.bare) : Sound s' (hist ++ eff.map some) := by
  have hve := ha.valid hv
  have e : Spec.runLost (hist ++ eff.map some) = (Spec.runLost hist).runFrom eff := by
    rw [Spec.runLost, List.foldl_append]
    exact Spec.foldl_made _ _
  refine ⟨e ▸ h.core.runFrom hve hr, Mono.runFrom (s := s.bare) (s' := s'.bare) h.core h.mono hve hr,
    EMono.runFrom (s := s.bare) (s' := s'.bare) h.all hr, PropsOk.step h.props hv hs, ?_⟩
  rw [e, listingLost, Listing.fromLost_append, Listing.fromLost_made]
  exact NShows.runFrom (s := s.bare) (s' := s'.bare) h.core h.shows hve hr

theorem tryStep_of_recover {s s' : State} {op : Op} {b : Bool} {o : MapOrder} (h : recoverStep o s op = some (s', b)) :
    tryStep o s op = some (s', b) ∨ tryStep o s op = none ∧ s.NilEdge ∧ b = true ∧
      ((∃ x y l ps, op = .newEdge x y l ps ∧ s' = s.leftNewEdge) ∨ ∃ k t, op = .addEdgeIndex k t ∧ s' = s.leftEdgeIndex k t) := by
  unfold recoverStep at h
  split at h
  · rename_i r hr; cases h; exact .inl hr
  · rename_i hn
    split at h
    · rename_i hnil
      refine .inr ⟨hn, hnil, ?_⟩
      cases op <;> first | cases h | skip
      · exact ⟨rfl, .inl ⟨_, _, _, _, rfl, rfl⟩⟩
      · exact ⟨rfl, .inr ⟨_, _, rfl, rfl⟩⟩
    · cases h

/-- `NewEdge` with a nil edge in the edge map of the graph -/
theorem newEdge_nil {s : State} (h : s.NilEdge) (o : MapOrder) (x y : Nat) (l : String) (ps : Props) :
    tryStep o s (.newEdge x y l ps) = none := by
  simp only [tryStep, State.tryNewEdge]
  have h3 : ∀ P f e, s.allEdges.add P f e = none := by
    intro P f e
    rw [EdgeMap.add, if_neg (by rw [h.1]; decide), if_pos h.1, h.2]
  rw [h3]

theorem runLostFrom_append (h h' : List (Option Op)) : ∀ s : State,
    runLostFrom s (h ++ h') = (runLostFrom s h).bind (fun s => runLostFrom s h') := by
  induction h with
  | nil => intro s; rfl
  | cons a h ih =>
    intro s
    rw [List.cons_append, runLostFrom, runLostFrom]
    cases s.stepLost a with
    | none => rfl
    | some s1 => exact ih s1

theorem runLostFrom_made (eff : List Op) : ∀ s : State, runLostFrom s (eff.map some) = runFrom s eff := by
  induction eff with
  | nil => intro s; rfl
  | cons op eff ih =>
    intro s
    rw [List.map_cons, runLostFrom, runFrom, show s.stepLost (some op) = step s op from rfl]
    cases step s op with
    | none => rfl
    | some s1 => exact ih s1

/-- What the program has done so far, without indexes, leads to the graph that the program has. -/
theorem C74_history {s : State} {hist : List (Option Op)} (h : Survived s hist) : runLost hist = some s.bare := by
  cases h with
  | new => rfl
  | call _ _ _ _ _ hr => exact hr

theorem Survived.sound {s : State} {hist : List (Option Op)} (h : Survived s hist) : Sound s hist := by
  induction h with
  | new => exact ⟨Core.init, Mono.init, EMono.init, ⟨fun _ => List.nodup_nil, fun _ => List.nodup_nil⟩, NShows.init⟩
  | @call s s' hist eff op b o h0 hv hs ha hl hr ih =>
    have hr0 : runLostFrom State.new hist = some s.bare := C74_history h0
    have hr : runLostFrom State.new (hist ++ eff) = some s'.bare := hr
    rw [runLostFrom_append, hr0, Option.bind_some] at hr
    rcases tryStep_of_recover hs with ht | ⟨ht, hnil, rfl, ⟨x, y, l, ps, rfl, rfl⟩ | ⟨k, t, rfl, rfl⟩⟩
    · cases ha with
      | made ha =>
        rw [runLostFrom_made] at hr
        exact ih.made hv ht ha hr
      | lost x y l ps =>
        rw [newEdge_nil ((nilEdge_iff ih.all).1 (hl.1 rfl).1)] at ht
        cases ht
    · rw [hl.2 ⟨(nilEdge_iff ih.all).2 hnil, x, y, l, ps, rfl⟩]
      exact ih.lost
    · cases ha with
      | made ha =>
        cases ha
        rw [List.map_nil, List.append_nil]
        exact ⟨ih.core, ih.mono, ih.all, ih.props, ih.shows⟩

/-- Every call on nodes and edges of the graph returns or panics; none runs forever. -/
theorem C74_returns {s : State} {hist : List (Option Op)} (h : Survived s hist) {op : Op} (hv : (Spec.runLost hist).Valid op)
    (o : MapOrder) : ∃ s' b, recoverStep o s op = some (s', b) := by
  have hd := h.sound
  unfold recoverStep
  cases ht : tryStep o s op with
  | some r => exact ⟨r.1, r.2, rfl⟩
  | none =>
    have hn : ¬ (s.NeedsEdges op → s.getEdges ≠ none) := fun hc => tryStep_total hd.core hd.mono hc hv ht
    have h1 : s.NeedsEdges op := Classical.byContradiction (fun hc => hn (fun h => absurd h hc))
    have h2 : s.getEdges = none := Classical.byContradiction (fun hc => hn (fun _ => hc))
    have h3 := (nilEdge_iff hd.all).1 h2
    dsimp only
    rw [if_pos h3]
    cases op with
    | newEdge x y l ps => exact ⟨_, _, rfl⟩
    | addEdgeIndex k t => exact ⟨_, _, rfl⟩
    | _ => exact h1.elim

/-- Each call on nodes and edges of the graph, returning or panicking, amounts to the calls that `Spec.AmountsLost` names.
`NewEdge` is lost exactly if `GetEdges` would yield a nil edge. -/
theorem C74 {s : State} {hist : List (Option Op)} (h : Survived s hist) {op : Op} (hv : (Spec.runLost hist).Valid op)
    {o : MapOrder} {s' : State} {b : Bool} (hs : recoverStep o s op = some (s', b)) :
    ∃ eff, (Spec.runLost hist).AmountsLost op b eff ∧
      (eff = [none] ↔ s.getEdges = none ∧ ∃ x y l ps, op = .newEdge x y l ps) ∧ Survived s' (hist ++ eff) := by
  have hd := h.sound
  have hr0 : runLostFrom State.new hist = some s.bare := C74_history h
  have key : ∀ eff, (Spec.runLost hist).AmountsLost op b eff →
      (eff = [none] ↔ s.getEdges = none ∧ ∃ x y l ps, op = .newEdge x y l ps) → runLostFrom s.bare eff = some s'.bare →
      ∃ eff, (Spec.runLost hist).AmountsLost op b eff ∧
        (eff = [none] ↔ s.getEdges = none ∧ ∃ x y l ps, op = .newEdge x y l ps) ∧ Survived s' (hist ++ eff) := by
    intro eff h1 h2 h3
    refine ⟨eff, h1, h2, .call h hv hs h1 h2 ?_⟩
    show runLostFrom State.new (hist ++ eff) = some s'.bare
    rw [runLostFrom_append, hr0]
    exact h3
  rcases tryStep_of_recover hs with ht | ⟨ht, hnil, rfl, ⟨x, y, l, ps, rfl, rfl⟩ | ⟨k, t, rfl, rfl⟩⟩
  · obtain ⟨eff, ha, hr⟩ := tryStep_amounts hd.core hv ht
    refine key _ (.made ha) ⟨fun hc => ?_, ?_⟩ (by rw [runLostFrom_made]; exact hr)
    · cases eff with
      | nil => cases hc
      | cons a l => simp at hc
    · rintro ⟨hn, x, y, l, ps, rfl⟩
      rw [newEdge_nil ((nilEdge_iff hd.all).1 hn)] at ht
      cases ht
  · exact key _ (.lost x y l ps) ⟨fun _ => ⟨(nilEdge_iff hd.all).2 hnil, x, y, l, ps, rfl⟩, fun _ => rfl⟩ rfl
  · exact key [] (.made (.addEdgeIndex k t true)) ⟨by simp, by rintro ⟨_, _, _, _, _, hc⟩; cases hc⟩ rfl

theorem Spec.Amounts.returned {σ : Spec} {op : Op} {eff : List Op} (h : σ.Amounts op false eff) :
    σ.runFrom eff = σ.step op := by
  cases h <;> rfl

/-- The histories of the other properties are such programs. -/
theorem C74_histories (ops : List Op) (hv : Spec.ValidHistory ops) (s : State) (hs : run ops = some s) :
    ∃ hist, Survived s hist ∧ Spec.runLost hist = Spec.run ops := by
  suffices H : ∀ (ops : List Op) (s0 : State) (hist : List (Option Op)), Survived s0 hist → (Spec.runLost hist).ValidFrom ops →
      runFrom s0 ops = some s → ∃ hist', Survived s hist' ∧ Spec.runLost hist' = (Spec.runLost hist).runFrom ops from
    H ops State.new [] .new hv hs
  intro ops
  induction ops with
  | nil =>
    intro s0 hist h _ hr
    cases hr
    exact ⟨hist, h, rfl⟩
  | cons op ops ih =>
    intro s0 hist h hv hr
    rw [runFrom] at hr
    split at hr
    · cases hr
    · rename_i s1 h1
      have ht := (tryStep_ok (o := .listed) h.sound.props).1 h1
      have hc : recoverStep .listed s0 op = some (s1, false) := by unfold recoverStep; rw [ht]
      obtain ⟨eff, ha, _, hS⟩ := C74 h hv.1 hc
      cases ha with
      | @made _ _ eff ha =>
        have e : Spec.runLost (hist ++ eff.map some) = (Spec.runLost hist).step op := by
          rw [Spec.runLost, List.foldl_append]
          exact (Spec.foldl_made _ _).trans ha.returned
        obtain ⟨hist', h2, h3⟩ := ih s1 _ hS (by rw [e]; exact hv.2) hr
        exact ⟨hist', h2, by rw [h3, e]; rfl⟩

/-- such a program, at a state where `GetEdges` would yield a nil edge and `NewEdge` is lost -/
example : ∃ s hist, Survived s hist ∧ s.getEdges = none ∧ (Spec.runLost hist).Valid (.newEdge 0 0 "C" []) := by
  have h : (run spoiledOps).any (fun s => s.getEdges.isNone) = true := by decide +kernel
  cases hr : run spoiledOps with
  | none => rw [hr] at h; cases h
  | some s =>
    rw [hr] at h
    obtain ⟨hist, h1, h2⟩ := C74_histories spoiledOps (by decide +kernel) s hr
    exact ⟨s, hist, h1, by simpa using h, by rw [h2]; decide +kernel⟩

/-- What `GetNodes` and `NumNodes` answer the program. -/
theorem C74_nodes {s : State} {hist : List (Option Op)} (h : Survived s hist) :
    s.getNodes = some (listingLost hist).nodes ∧ s.numNodes = (Spec.runLost hist).nodes.length :=
  ⟨NShows.getNodes (s := s.bare) h.sound.core h.sound.shows, h.sound.core.count⟩

/-- What the program sees of a node. -/
theorem C74_node {s : State} {hist : List (Option Op)} (h : Survived s hist) {n : Nat} (hn : n ∈ (Spec.runLost hist).nodes) :
    (∀ k, s.nodeProperty n k = (Spec.runLost hist).nprop n k) ∧
    (∀ l, l ∈ s.nodeGetLabels n ↔ l ∈ (Spec.runLost hist).labels n) ∧
    ∃ outs ins, s.nodeEdges n .outgoing = some outs ∧ s.nodeEdges n .incoming = some ins ∧
      outs.Perm ((Spec.runLost hist).edges.filter (fun e => (Spec.runLost hist).src e = n)) ∧
      ins.Perm ((Spec.runLost hist).edges.filter (fun e => (Spec.runLost hist).dst e = n)) := by
  have c := h.sound.core
  obtain ⟨outs, h1, h2⟩ := c.out_enum hn
  obtain ⟨ins, h3, h4⟩ := c.inc_enum hn
  exact ⟨(c.nprops n hn).2, (c.labels n hn).2, outs, ins, h1, h3, h2, h4⟩

/-- What the program sees of an edge. -/
theorem C74_edge {s : State} {hist : List (Option Op)} (h : Survived s hist) {e : Nat} (he : e ∈ (Spec.runLost hist).edges) :
    s.edgeGetLabel e = (Spec.runLost hist).label e ∧ s.edgeGetFrom e = (Spec.runLost hist).src e ∧
    s.edgeGetTo e = (Spec.runLost hist).dst e ∧ ∀ k, s.edgeProperty e k = (Spec.runLost hist).eprop e k := by
  have c := h.sound.core
  obtain ⟨h1, h2, h3⟩ := c.eattr e he
  exact ⟨h3, h1, h2, (c.eprops e he).2⟩

/-! ## The nil edge stays -/

theorem NilEdge.remove {em : EdgeMap} (h1 : em.n = 1) (h2 : em.only = none) (P : Slot) (f : Nat → String) (e : Nat) :
    (em.remove P f e).2 = em := by
  rw [EdgeMap.remove, if_neg (by rw [h1]; decide), if_pos h1, h2, if_pos (by simp)]

theorem dropEdge_nil {s : State} (h : s.NilEdge) (e : Nat) : (s.dropEdge e).allEdges = s.allEdges :=
  NilEdge.remove h.1 h.2 _ _ _

theorem removeEdge_nil {s : State} (h : s.NilEdge) (e : Nat) : ((s.disconnect e).dropEdge e).allEdges = s.allEdges :=
  dropEdge_nil (s := s.disconnect e) h e

theorem tryDetachEdges_nil (o : MapOrder) (es : List Nat) : ∀ {s : State}, s.NilEdge → (s.tryDetachEdges o es).1.NilEdge := by
  induction es with
  | nil => intro s h; exact h
  | cons e es ih =>
    intro s h
    have h1 : (s.tryDetachEdge o e).1.NilEdge := by
      unfold State.NilEdge
      rw [show (s.tryDetachEdge o e).1.allEdges = s.allEdges from removeEdge_nil h e]
      exact h
    rw [State.tryDetachEdges]
    split
    · exact h1
    · exact ih h1

theorem tryDetachNode_nil {o : MapOrder} {s s' : State} {n : Nat} {b : Bool} (h : s.NilEdge)
    (hs : s.tryDetachNode o n = some (s', b)) : s'.NilEdge := by
  unfold State.tryDetachNode at hs
  split at hs
  · cases hs
  · rename_i es _
    have h1 := tryDetachEdges_nil o es h
    dsimp only at hs
    split at hs
    · have h2 := congrArg Prod.fst (Option.some.inj hs)
      dsimp only at h2
      rw [← h2]
      exact h1
    · split at hs
      · cases hs
      · rename_i es' _
        have h2 := tryDetachEdges_nil o es' (s := { (s.tryDetachEdges o es).1 with incoming := upd (s.tryDetachEdges o es).1.incoming n EdgeMap.empty }) h1
        split at hs
        · have h3 := congrArg Prod.fst (Option.some.inj hs)
          dsimp only at h3
          rw [← h3]
          exact h2
        · cases hs; exact h2

theorem connect_nil {s s' : State} {e : Nat} (h : s.NilEdge) (hs : s.connect e = some s') : s'.NilEdge := by
  obtain ⟨p1, p2, im, om, rfl⟩ := connect_frame hs
  exact h

/-- No call on any nodes and edges changes that there is a nil edge. -/
theorem recoverStep_nil {o : MapOrder} {s s' : State} {op : Op} {b : Bool} (h : s.NilEdge)
    (hs : recoverStep o s op = some (s', b)) : s'.NilEdge := by
  rcases tryStep_of_recover hs with ht | ⟨_, _, _, ⟨_, _, _, _, _, rfl⟩ | ⟨_, _, _, rfl⟩⟩
  · cases op with
    | newNode ls ps => cases ht; exact h
    | newEdge x y l ps => rw [newEdge_nil h] at ht; cases ht
    | setLabels n ls => cases ht; exact h
    | setNodeProp n k v =>
      have ht := congrArg Prod.fst (Option.some.inj ht)
      dsimp only at ht
      subst ht
      unfold State.trySetNodeProp
      dsimp only
      split <;> exact h
    | removeNodeProp n k =>
      have ht := congrArg Prod.fst (Option.some.inj ht)
      dsimp only at ht
      subst ht
      unfold State.tryRemoveNodeProp
      split
      · exact h
      · rename_i s1 h0
        unfold State.removeNodeProp at h0
        split at h0
        · cases h0; exact h
        · split at h0
          · cases h0
          · cases h0; exact h
    | detach n => exact tryDetachNode_nil h ht
    | detachRemove n =>
      simp only [tryStep, State.tryDetachRemoveNode] at ht
      split at ht
      · cases ht
      · rename_i h0; cases ht; exact tryDetachNode_nil h h0
      · rename_i h0
        have h1 := tryDetachNode_nil h h0
        cases ht
        exact h1
    | setEdgeLabel e l =>
      simp only [tryStep, Option.map_eq_some_iff] at ht
      obtain ⟨s1, h1, h2⟩ := ht
      cases h2
      unfold State.setEdgeLabel at h1
      split at h1
      · cases h1; exact h
      · exact connect_nil (s := { s.disconnect e with eLabel := upd (s.disconnect e).eLabel e l }) h h1
    | setEdgeProp n k v =>
      have ht := congrArg Prod.fst (Option.some.inj ht)
      dsimp only at ht
      subst ht
      unfold State.trySetEdgeProp
      dsimp only
      split <;> exact h
    | removeEdgeProp n k =>
      have ht := congrArg Prod.fst (Option.some.inj ht)
      dsimp only at ht
      subst ht
      unfold State.tryRemoveEdgeProp
      split
      · exact h
      · rename_i s1 h0
        unfold State.removeEdgeProp at h0
        split at h0
        · cases h0; exact h
        · split at h0
          · cases h0
          · cases h0; exact h
    | removeEdge e =>
      cases ht
      unfold State.NilEdge
      rw [show (s.removeEdge e).allEdges = s.allEdges from removeEdge_nil h e]
      exact h
    | addNodeIndex k t =>
      simp only [tryStep, State.tryAddNodeIndex] at ht
      split at ht
      · cases ht; exact h
      · split at ht
        · cases ht
        · cases ht; exact h
    | addEdgeIndex k t =>
      simp only [tryStep, State.tryAddEdgeIndex] at ht
      split at ht
      · cases ht; exact h
      · split at ht
        · cases ht
        · cases ht; exact h
  · exact h
  · exact h

/-- Once `GetEdges` would yield a nil edge, it always would, `NumEdges` is 1, `GetEdgesWithAnyLabel` panics, and `NewEdge`
panics, whatever the program does and recovers from. All that `NewEdge` does is to use up an id. -/
theorem C74_forever {s : State} {hist : List (Option Op)} (h : Survived s hist) (hn : s.getEdges = none)
    (prog : List (MapOrder × Op)) {s' : State} (hr : recoverRunFrom s prog = some s') :
    s'.getEdges = none ∧ s'.numEdges = 1 ∧ (∀ ls, s'.getEdgesWithAnyLabel ls = none) ∧
    ∀ o x y l ps, recoverStep o s' (.newEdge x y l ps) = some (s'.leftNewEdge, true) := by
  have h0 := (nilEdge_iff h.sound.all).1 hn
  have h1 : s'.NilEdge := by
    clear hn h
    induction prog generalizing s with
    | nil => cases hr; exact h0
    | cons a prog ih =>
      rw [recoverRunFrom] at hr
      split at hr
      · cases hr
      · rename_i s1 b hs
        exact ih hr (recoverStep_nil h0 hs)
  have hne : s'.allEdges.n ≠ 0 := by rw [h1.1]; decide
  refine ⟨?_, h1.1, fun ls => ?_, fun o x y l ps => ?_⟩
  · rw [State.getEdges, EdgeMap.enum, if_neg hne, if_pos h1.1, h1.2]; rfl
  · rw [State.getEdgesWithAnyLabel, EdgeMap.enumAny, if_neg hne, if_pos h1.1, h1.2]
  · rw [recoverStep, newEdge_nil h1]
    dsimp only
    rw [if_pos h1]

/-- The first edge index on a property, created when `GetEdges` would yield a nil edge: the call panics and leaves an index
without any edge behind. Creating the index again does nothing and does not panic. -/
theorem C74_index {s : State} {hist : List (Option Op)} (h : Survived s hist) (hn : s.getEdges = none) {k : String}
    (hk : AMap.get s.edgeIx k = none) (o : MapOrder) (t : IndexType) :
    ∃ s1, recoverStep o s (.addEdgeIndex k t) = some (s1, true) ∧ s1.getEdgesWithProperty k = some [] ∧
      ∀ o' t', recoverStep o' s1 (.addEdgeIndex k t') = some (s1, false) := by
  have h0 := (nilEdge_iff h.sound.all).1 hn
  have hg : AMap.get (s.leftEdgeIndex k t).edgeIx k = some (Index.new t) := by
    show AMap.get (AMap.set s.edgeIx k (Index.new t)) k = _
    rw [AMap.get_set, if_pos rfl]
  refine ⟨s.leftEdgeIndex k t, ?_, ?_, fun o' t' => ?_⟩
  · have ht : tryStep o s (.addEdgeIndex k t) = none := by
      simp only [tryStep, State.tryAddEdgeIndex, hk, hn]
    rw [recoverStep, ht]
    dsimp only
    rw [if_pos h0]
  · rw [State.getEdgesWithProperty, hg]
    cases t <;> rfl
  · have ht : tryStep o' (s.leftEdgeIndex k t) (.addEdgeIndex k t') = some (s.leftEdgeIndex k t, false) := by
      simp only [tryStep, State.tryAddEdgeIndex, hg]
    rw [recoverStep, ht]

/-- A program that makes `GetEdges` yield a nil edge, and then calls on. -/
def survivedOps : List Op :=
  [.newNode [] [], .newEdge 0 0 "A" [], .newEdge 0 0 "B" [("k", .int 1)], .newEdge 0 0 "B" [("k", .int 1)],
    .setEdgeLabel 1 "B", .removeEdge 1, .setEdgeLabel 2 "A", .removeEdge 2, .newEdge 0 0 "C" [], .newNode ["L"] [],
    .addEdgeIndex "k" .hash, .newEdge 0 5 "D" [], .addEdgeIndex "k" .btree, .removeEdge 3]

/-- which calls of a program panic, and the state at its end -/
def recoverFlags (ops : List Op) : Option (State × List Bool) :=
  ops.foldl (fun o op => o.bind (fun (s, bs) => (recoverStep .listed s op).map (fun (s, b) => (s, bs ++ [b])))) (some (State.new, []))

/-- The program reaches its end. The new node has the id 5, because the edge that is lost has used up 4. After the last call
the graph has no edge, and `NumEdges` is 1. -/
theorem C74_example : (recoverFlags survivedOps).map (fun r => r.2) =
      some [false, false, false, false, false, false, false, false, true, false, true, true, false, false] ∧
    (recoverFlags survivedOps).map (fun r => (r.1.getNodes, r.1.numEdges, r.1.getEdges)) = some (some [0, 5], 1, none) ∧
    (recoverFlags survivedOps).map (fun r => r.1.nodeEdges 0 .any) = some (some []) ∧
    (recoverFlags (survivedOps.take 13)).map (fun r => r.1.nodeEdges 0 .outgoing) = some (some [3]) ∧
    (recoverFlags (survivedOps.take 13)).map (fun r => ((r.1.edgeProperty 3 "k").isSome, r.1.getEdgesWithProperty "k")) =
      some (true, some []) := by decide +kernel

end LPG
