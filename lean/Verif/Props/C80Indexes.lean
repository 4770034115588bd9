import Verif.Proofs.RecoverWorldIx
import Verif.Props.C75
import Verif.Props.C80
/-!
# C80: the indexes of several graphs in a program that recovers from every panic
-/
namespace LPG
open World State

/-- what holds of the indexes of every graph -/
structure SoundIx (W : World) : Prop where
  nin : ∀ g, (W.view g).nodeIx.In (W.N g)
  ein : ∀ g, (W.view g).edgeIx.In (W.E g)
  nsub : ∀ g, IxsSub TryRep (W.view g).nodeIx (W.view g).nmem
  esub : ∀ g, (W.view g).EdgeSub

theorem Agree.sub {N E : Nat → Prop} {s s' : State} (a : Agree N E s.bare s'.bare) (hb : s.idBase ≤ s'.idBase)
    (h1 : s'.nodeIx = s.nodeIx) (h2 : s'.edgeIx = s.edgeIx) (hn : s.nodeIx.In N) (he : s.edgeIx.In E) :
    (IxsSub TryRep s.nodeIx s.nmem → IxsSub TryRep s'.nodeIx s'.nmem) ∧ (IxsSub TRep s.edgeIx s.emem → IxsSub TRep s'.edgeIx s'.emem) := by
  constructor
  · intro h
    rw [h1]
    refine h.other restrict_try hn (fun k x v hx hv => ?_)
    have e : s'.nProps x = s.nProps x := (a.node x hx).2.2.2.1
    simp only [State.nmem] at hv ⊢
    split at hv
    · rename_i hl
      rw [if_pos (Nat.lt_of_lt_of_le hl hb), e]
      exact hv
    · cases hv
  · intro h
    rw [h2]
    refine h.other restrict_t he (fun k x v hx hv => ?_)
    have e : s'.eProps x = s.eProps x := (a.edge x hx).2.2.2.1
    simp only [State.emem] at hv ⊢
    rw [e]
    exact hv

theorem Sane.step_ix {W W' : World} {hist : List (Nat × Option Op)} (h : Sane W hist) {g : Nat} {op : Op}
    (hv : (WSpec.runLost hist g).Valid op) {o : MapOrder} {b : Bool} (hs : W.recoverStep o g op = some (W', b))
    (ih : SoundIx W) : SoundIx W' := by
  obtain ⟨W0, _, hd, hp⟩ := id h
  obtain ⟨ht, hf⟩ := hd.target hv
  obtain ⟨ag, hle, grow⟩ := h.keeps hv hs
  obtain ⟨eff, ha, hl, hS⟩ := h.step hv hs
  obtain ⟨W1, _, hd1, _⟩ := hS
  have hc := (h.closed g).1
  have own : (W'.view g).nodeIx.In (W'.N g) ∧ (W'.view g).edgeIx.In (W'.E g) ∧
      IxsSub TryRep (W'.view g).nodeIx (W'.view g).nmem ∧ (W'.view g).EdgeSub := by
    have hn : (W.view g).nodeIx.In (W'.N g) := (ih.nin g).mono (fun x hx => (grow g x).1 hx)
    have he : (W.view g).edgeIx.In (W'.E g) := (ih.ein g).mono (fun x hx => (grow g x).2 hx)
    rcases recover_cases ht hf hs with ⟨s', hs', rfl⟩ | ⟨_, hnil, rfl, ⟨x, y, l, ps, rfl, rfl⟩ | ⟨k, t, rfl, rfl⟩⟩
    · rw [view_store]
      have hm : Mono (W.view g).nptr (W.view g).allNodes (W.view g).idBase := by
        have := hd.ordered.nodes g
        rw [hd.bared.view] at this
        exact this
      have hnx : (W.view g).idBase = (WSpec.runLost hist g).next := (hd.core g).next
      have eS : WSpec.runLost (hist ++ eff.map (fun a => (g, a))) = WSpec.runLostFrom (WSpec.runLost hist) (eff.map (fun a => (g, a))) := by
        rw [WSpec.runLost, specLost_append]; rfl
      have i1 := tryStep_in (N := ((W.alloc g op).store g s').N g) (E := ((W.alloc g op).store g s').E g) hs' hn he
        (by
          rintro ls ps rfl
          rw [(hd1.bared.same g).1]
          refine hd1.rep.ownN g _ ?_
          rw [eS, hnx]
          cases ha with
          | made ha =>
            cases ha
            simp [WSpec.runLostFrom, WSpec.stepLost, WSpec.step, Spec.step])
        (by
          rintro x y l ps rfl
          rw [(hd1.bared.same g).2]
          refine hd1.rep.ownE g _ ?_
          rw [eS, hnx]
          cases ha with
          | made ha =>
            cases ha
            simp [WSpec.runLostFrom, WSpec.stepLost, WSpec.step, Spec.step]
          | lost x y l ps =>
            exfalso
            have : tryStep o (W.view g) (.newEdge x y l ps) = none :=
              newEdge_nil ((nilEdge_iff (hd.all g)).1 (hl.1 rfl).1) o x y l ps
            rw [this] at hs'; cases hs')
        (by
          rintro n k v rfl
          refine (grow g n).1 ?_
          rw [(hd.bared.same g).1]
          exact hd.rep.ownN g n hv)
        (by
          rintro n k v rfl
          refine (grow g n).2 ?_
          rw [(hd.bared.same g).2]
          exact hd.rep.ownE g n hv)
        (fun ns hns n hm => (grow g n).1 (walk_in (fun x hx => (hc.link x hx).1) hc.head hns n hm))
        (fun es hes e hm => (grow g e).2 (EdgeMap.enum_in hc.sl0 hc.all hes e hm))
      exact ⟨i1.1, i1.2, tryNodeSub_step (hd.core g) hm (ih.nsub g) hv hs',
        EdgeSub.tryStep (hd.core g) (s := W.view g) hp (ih.esub g) hv hs'⟩
    · refine ⟨?_, ?_, ?_, ?_⟩
      · rw [view_lost]; exact hn
      · rw [view_lost]; exact he
      · rw [view_lost]
        refine (ih.nsub g).mono ?_
        intro k x v hx
        simp only [State.nmem] at hx ⊢
        split at hx
        · rename_i hl
          rw [if_pos (show x < (W.view g).leftNewEdge.idBase from Nat.lt_succ_of_lt hl)]
          exact hx
        · cases hx
      · rw [view_lost]
        exact ⟨(ih.esub g).1, fun x hx => (ih.esub g).2 x (Nat.le_of_succ_le hx)⟩
    · have hview : (W.store g ((W.view g).leftEdgeIndex k t)).view g = (W.view g).leftEdgeIndex k t := by
        simp only [World.view, store, upd_same]
      refine ⟨?_, ?_, ?_, ?_⟩
      · rw [hview]; exact hn
      · rw [hview]; exact he.set (Index.In.new _ t) k
      · rw [hview]; exact ih.nsub g
      · rw [hview]
        refine ⟨?_, (ih.esub g).2⟩
        intro k' jx hk
        have hk : AMap.get (AMap.set (W.view g).edgeIx k (Index.new t)) k' = some jx := hk
        rw [AMap.get_set] at hk
        split at hk
        · cases hk
          exact ⟨_, TRep.new t, fun _ _ h => by cases h⟩
        · exact (ih.esub g).1 k' jx hk
  have other : ∀ k, k ≠ g → (W'.view k).nodeIx.In (W'.N k) ∧ (W'.view k).edgeIx.In (W'.E k) ∧
      IxsSub TryRep (W'.view k).nodeIx (W'.view k).nmem ∧ (W'.view k).EdgeSub := by
    intro k hk
    obtain ⟨e1, e2⟩ := World.Made.other hk ht hf hs
    have hsub := (ag k hk).sub hle e1 e2 (ih.nin k) (ih.ein k)
    refine ⟨?_, ?_, hsub.1 (ih.nsub k), hsub.2 (ih.esub k).1, own.2.2.2.2⟩
    · rw [e1]; exact (ih.nin k).mono (fun x hx => (grow k x).1 hx)
    · rw [e2]; exact (ih.ein k).mono (fun x hx => (grow k x).2 hx)
  have all : ∀ k, (W'.view k).nodeIx.In (W'.N k) ∧ (W'.view k).edgeIx.In (W'.E k) ∧
      IxsSub TryRep (W'.view k).nodeIx (W'.view k).nmem ∧ (W'.view k).EdgeSub := by
    intro k
    by_cases hk : k = g
    · subst hk; exact own
    · exact other k hk
  exact ⟨fun k => (all k).1, fun k => (all k).2.1, fun k => (all k).2.2.1, fun k => (all k).2.2.2⟩

theorem World.store_view (W : World) (t : Nat) (s : State) : (W.store t s).view t = s := by simp only [World.view, store, upd_same]

/-- The order of the properties of a new edge matters to the indexes only. -/
theorem tryNewEdge_props {s : State} {x y : Nat} {l : String} {ps ps' : Props} {r : State × Bool}
    (h : s.tryNewEdge x y l ps = some r) : r.1.eProps = upd s.eProps s.idBase ps ∧
    s.tryNewEdge x y l ps' = some ({ r.1 with eProps := upd s.eProps s.idBase ps', edgeIx := (Indexes.tryAddAll s.idBase ps' s.edgeIx).1 },
      (Indexes.tryAddAll s.idBase ps' s.edgeIx).2) := by
  simp only [State.tryNewEdge, State.connect] at h ⊢
  split at h
  · cases h
  · rename_i h1
    split at h
    · cases h
    · rename_i h2
      split at h2
      · cases h2
      · rename_i h3
        split at h2
        · cases h2
        · rename_i h4
          cases h2
          cases h
          exact ⟨rfl, rfl⟩

theorem get_perm {ps ps' : Props} (h : ps'.Perm ps) (hn : (AMap.keys ps).Nodup) {k : String} {v : Value}
    (hg : AMap.get ps' k = some v) : AMap.get ps k = some v := AMap.get_of_mem hn (h.mem_iff.1 (AMap.get_mem hg))

theorem Sane.cloneNode_ix {W : World} {hist : List (Nat × Option Op)} (h : Sane W hist) {s t n : Nat} (hn : W.N s n) (o : MapOrder)
    (f : String → Value → Value) (ih : SoundIx W) : SoundIx (W.tryCloneNode o t n f).1 := by
  obtain ⟨hv1, hs1⟩ := h.newNode hn (t := t) f (.refl _)
  obtain ⟨hv2, hs2⟩ := h.newNode hn (t := t) f (o.perm W.heap.idBase _)
  have i1 := h.step_ix hv1 hs1 ih
  have i2 := h.step_ix hv2 hs2 ih
  have key : ∀ g, ((W.tryCloneNode o t n f).1.view g).nodeIx.In ((W.tryCloneNode o t n f).1.N g) ∧
      ((W.tryCloneNode o t n f).1.view g).edgeIx.In ((W.tryCloneNode o t n f).1.E g) ∧
      IxsSub TryRep ((W.tryCloneNode o t n f).1.view g).nodeIx ((W.tryCloneNode o t n f).1.view g).nmem ∧
      ((W.tryCloneNode o t n f).1.view g).EdgeSub := by
    intro g
    by_cases hg : g = t
    · subst hg
      have a1 := i2.nin g
      have a2 := i1.ein g
      have a3 := i2.nsub g
      have a4 := i1.esub g
      rw [store_view] at a1 a2 a3 a4
      simp only [tryCloneNode]
      rw [store_view]
      refine ⟨a1, a2, a3.mono ?_, ⟨a4.1, a4.2⟩⟩
      intro k x v hx
      have hx : (if x < (W.view g).idBase + 1 then AMap.get (upd (W.view g).nProps (W.view g).idBase
        (o.order W.heap.idBase (cloneProps f (W.heap.nProps n))) x) k else none) = some v := hx
      show (if x < (W.view g).idBase + 1 then AMap.get (upd (W.view g).nProps (W.view g).idBase
        (cloneProps f (W.heap.nProps n)) x) k else none) = some v
      by_cases hl : x < (W.view g).idBase + 1
      · rw [if_pos hl] at hx ⊢
        rw [upd_apply] at hx ⊢
        split at hx
        · rename_i he
          rw [if_pos he]
          exact get_perm (o.perm _ _) hv1 hx
        · rename_i he
          rw [if_neg he]
          exact hx
      · rw [if_neg hl] at hx
        cases hx
    · have e : (W.tryCloneNode o t n f).1.view g = World.view ({ W with nodeGraph := upd W.nodeGraph W.heap.idBase (some t) }.store t
          ((W.view t).tryNewNode (W.heap.nLabels n) (cloneProps f (W.heap.nProps n))).1) g := by
        simp only [tryCloneNode, World.view, store, upd_other _ _ hg]
      rw [e]
      exact ⟨i1.nin g, i1.ein g, i1.nsub g, i1.esub g⟩
  exact ⟨fun g => (key g).1, fun g => (key g).2.1, fun g => (key g).2.2.1, fun g => (key g).2.2.2⟩

theorem Sane.cloneEdge_ix {W W' : World} {hist : List (Nat × Option Op)} (h : Sane W hist) {s t e x y i : Nat} {b : Bool}
    (he : W.E s e) (hx : x ∈ (WSpec.runLost hist t).nodes) (hy : y ∈ (WSpec.runLost hist t).nodes) {o : MapOrder}
    {f : String → Value → Value} (hc : W.tryCloneEdge o t (some x) (some y) e f = some (W', i, b)) (ih : SoundIx W) : SoundIx W' := by
  obtain ⟨hv1, gx, gy, hs1⟩ := h.newEdge he hx hy f (.refl _)
  obtain ⟨hv2, _, _, hs2⟩ := h.newEdge he hx hy f (o.perm W.heap.idBase _)
  unfold tryCloneEdge at hc
  simp only [gx, gy, ne_eq, not_true, if_false] at hc
  cases hn : (W.view t).tryNewEdge x y (W.heap.eLabel e) (cloneProps f (W.heap.eProps e)) with
  | none =>
    rw [hn] at hc hs1
    simp only at hc hs1
    split at hc
    · rename_i hnil
      cases hc
      rw [if_pos hnil] at hs1
      exact h.step_ix hv1 hs1 ih
    · cases hc
  | some r =>
    obtain ⟨hp, hn2⟩ := tryNewEdge_props (ps' := o.order W.heap.idBase (cloneProps f (W.heap.eProps e))) hn
    rw [hn] at hc hs1
    rw [hn2] at hs2
    simp only at hc hs1 hs2
    cases hc
    have i1 := h.step_ix hv1 hs1 ih
    have i2 := h.step_ix hv2 hs2 ih
    have key : ∀ W', W' = ({ W with isEdge := upd W.isEdge W.heap.idBase true } : World).store t { r.1 with edgeIx :=
        (Indexes.tryAddAll W.heap.idBase (o.order W.heap.idBase (cloneProps f (W.heap.eProps e))) (W.root t).edgeIx).1 } →
        ∀ g, (W'.view g).nodeIx.In (W'.N g) ∧ (W'.view g).edgeIx.In (W'.E g) ∧
          IxsSub TryRep (W'.view g).nodeIx (W'.view g).nmem ∧ (W'.view g).EdgeSub := by
      rintro W' rfl g
      by_cases hg : g = t
      · subst hg
        have a1 := i1.nin g
        have a2 := i2.ein g
        have a3 := i1.nsub g
        have a4 := i2.esub g
        have a5 := i1.esub g
        rw [store_view] at a1 a2 a3 a4 a5
        rw [store_view]
        refine ⟨a1, a2, a3, ⟨a4.1.mono ?_, a5.2⟩⟩
        intro k x v hx
        simp only [State.emem, hp] at hx ⊢
        rw [upd_apply] at hx ⊢
        split at hx
        · rename_i he
          rw [if_pos he]
          exact get_perm (o.perm _ _) hv1.2.2 hx
        · rename_i he
          rw [if_neg he]
          exact hx
      · have e : World.view (({ W with isEdge := upd W.isEdge W.heap.idBase true } : World).store t { r.1 with edgeIx :=
            (Indexes.tryAddAll W.heap.idBase (o.order W.heap.idBase (cloneProps f (W.heap.eProps e))) (W.root t).edgeIx).1 }) g =
            World.view (({ W with isEdge := upd W.isEdge W.heap.idBase true } : World).store t r.1) g := by
          simp only [World.view, store, upd_other _ _ hg]
        rw [e]
        exact ⟨i1.nin g, i1.ein g, i1.nsub g, i1.esub g⟩
    have := key _ rfl
    exact ⟨fun g => (this g).1, fun g => (this g).2.1, fun g => (this g).2.2.1, fun g => (this g).2.2.2⟩

theorem SurvivedAll.indexes {W : World} {hist : List (Nat × Option Op)} (h : SurvivedAll W hist) : SoundIx W := by
  induction h with
  | new =>
    exact ⟨(fun _ _ _ hm => nomatch hm), (fun _ _ _ hm => nomatch hm), (fun _ _ _ hk => nomatch hk),
      fun _ => ⟨(fun _ _ hk => nomatch hk), fun _ _ => rfl⟩⟩
  | call h hv hs _ _ _ _ ih => exact h.sound.step_ix hv hs ih
  | cloneNode h hn ih => exact h.sound.cloneNode_ix hn _ _ ih
  | cloneEdge h he hx hy hc ih => exact h.sound.cloneEdge_ix he hx hy hc ih

theorem SurvivedAll.full {W : World} {hist : List (Nat × Option Op)} (h : SurvivedAll W hist) (k : Nat) :
    Closed (W.N k) (W.E k) (W.view k) := by
  have c := (h.sound.closed k).1
  exact ⟨c.head, c.tail, c.link, c.ends, c.maps, c.all, c.sl0, c.sl1, c.sl2, c.lbl, h.indexes.nin k, h.indexes.ein k⟩

/-- A call on one graph, returning or panicking, changes no answer of another graph. -/
theorem C80_others {W : World} {hist : List (Nat × Option Op)} (h : SurvivedAll W hist) {g : Nat} {op : Op}
    (hv : (WSpec.runLost hist g).Valid op) {o : MapOrder} {W' : World} {b : Bool} (hs : W.recoverStep o g op = some (W', b))
    {k : Nat} (hk : k ≠ g) :
    SameAnswers (W.N k) (W.E k) (W.view k) (W'.view k) ∧
    (∀ key v, (W'.view k).nodesByValue key v = (W.view k).nodesByValue key v) ∧
    ∀ key v, (W'.view k).edgesByValue key v = (W.view k).edgesByValue key v := by
  obtain ⟨W0, _, hd, _⟩ := h.sound
  obtain ⟨ht, hf⟩ := hd.target hv
  obtain ⟨ag, hle, _⟩ := h.sound.keeps hv hs
  obtain ⟨e1, e2⟩ := World.Made.other hk ht hf hs
  have a := ag k hk
  refine ⟨?_, fun key v => by simp only [State.nodesByValue, e1], fun key v => by simp only [State.edgesByValue, e2]⟩
  exact (⟨a.allNodes, a.allEdges, a.byLabel, e1, e2, a.node, a.edge⟩ : Agree (W.N k) (W.E k) (W.view k) (W'.view k)).answers
    (h.full k) (h.sound.closed k).2.1 (h.sound.closed k).2.2 hle

/-- What a graph enumerates is its own, also what its indexes hold. -/
theorem C80_own {W : World} {hist : List (Nat × Option Op)} (h : SurvivedAll W hist) (g : Nat) :
    (∀ ns, (W.view g).getNodes = some ns → ∀ n ∈ ns, W.N g n) ∧
    (∀ es, (W.view g).getEdges = some es → ∀ e ∈ es, W.E g e) ∧
    (∀ k ns, (W.view g).getNodesWithProperty k = some ns → ∀ n ∈ ns, W.N g n) ∧
    (∀ k es, (W.view g).getEdgesWithProperty k = some es → ∀ e ∈ es, W.E g e) := by
  have c := h.full g
  have h1 : ∀ ns, (W.view g).getNodes = some ns → ∀ n ∈ ns, W.N g n :=
    fun ns hn => walk_in (fun x hx => (c.link x hx).1) c.head hn
  have h2 : ∀ es, (W.view g).getEdges = some es → ∀ e ∈ es, W.E g e := fun es he => EdgeMap.enum_in c.sl0 c.all he
  have ix : ∀ {P : Nat → Prop} {ix : Index}, ix.In P → ∀ x ∈ ix.valueItr, P x := by
    intro P ix hi x hx
    cases ix with
    | btree t =>
      simp only [Index.valueItr, SetTree.valueItr, List.mem_flatten, List.mem_map] at hx
      obtain ⟨l, ⟨e, he, rfl⟩, hx⟩ := hx
      obtain ⟨p, hp, rfl⟩ := List.mem_map.1 hx
      exact hi e he p hp
    | hash t =>
      simp only [Index.valueItr, HashIx.valueItr, List.mem_map] at hx
      obtain ⟨p, hp, rfl⟩ := hx
      exact hi p hp
  refine ⟨h1, h2, fun k ns hn => ?_, fun k es he => ?_⟩
  · unfold State.getNodesWithProperty at hn
    cases hg : AMap.get (W.view g).nodeIx k with
    | some i =>
      rw [hg] at hn
      cases hn
      exact ix (c.nix k i (AMap.mem_of_get hg))
    | none =>
      rw [hg] at hn
      simp only [Option.map_eq_some_iff] at hn
      obtain ⟨xs, hx, rfl⟩ := hn
      exact fun n hm => h1 xs hx n (List.mem_filter.1 hm).1
  · unfold State.getEdgesWithProperty at he
    cases hg : AMap.get (W.view g).edgeIx k with
    | some i =>
      rw [hg] at he
      cases he
      exact ix (c.eix k i (AMap.mem_of_get hg))
    | none =>
      rw [hg] at he
      simp only [Option.map_eq_some_iff] at he
      obtain ⟨xs, hx, rfl⟩ := he
      exact fun n hm => h2 xs hx n (List.mem_filter.1 hm).1

/-- `GetNodesWithProperty` yields no node twice, and every node it yields has the property. -/
theorem C80_nodes {W : World} {hist : List (Nat × Option Op)} (h : SurvivedAll W hist) (g : Nat) (k : String) :
    ∃ all, (W.view g).getNodesWithProperty k = some all ∧ all.Nodup ∧ ∀ n ∈ all, ∃ v, (W.view g).nodeProperty n k = some v := by
  obtain ⟨W0, _, hd, _⟩ := h.sound
  have hm : Mono (W.view g).nptr (W.view g).allNodes (W.view g).idBase := by
    have := hd.ordered.nodes g
    rw [hd.bared.view] at this
    exact this
  exact nodeLookup_all hm (h.indexes.nsub g) k

/-- Lookups in indexes on nodes. -/
theorem C80_nodes_hash {W : World} {hist : List (Nat × Option Op)} (h : SurvivedAll W hist) (g : Nat) {k : String} {t : HashIx}
    (hg : AMap.get (W.view g).nodeIx k = some (.hash t)) {v : Value} {r : Option (List Nat × Int)}
    (hf : (W.view g).nodesByValue k v = some r) :
    ∃ all xs, (W.view g).getNodesWithProperty k = some all ∧ r = some (xs, (xs.length : Int)) ∧ xs.Nodup ∧
      ∀ n, n ∈ xs ↔ n ∈ all ∧ ∃ w, (W.view g).nodeProperty n k = some w ∧ bareValue w = bareValue v :=
  nodeLookup_hash (h.indexes.nsub g) hg hf

theorem C80_nodes_btree {W : World} {hist : List (Nat × Option Op)} (h : SurvivedAll W hist) (g : Nat) {k : String} {t : SetTree}
    (hg : AMap.get (W.view g).nodeIx k = some (.btree t)) {v : Value} {r : Option (List Nat × Int)}
    (hf : (W.view g).nodesByValue k v = some r) :
    ∃ all xs, (W.view g).getNodesWithProperty k = some all ∧ r = some (xs, (xs.length : Int)) ∧ xs.Nodup ∧
      (∀ n ∈ xs, n ∈ all ∧ ∃ w, (W.view g).nodeProperty n k = some w ∧ ∀ c, cmp v w = some c → c = 0) ∧
      ∀ n ∈ all, ∀ w, (W.view g).nodeProperty n k = some w → cmp v w = some 0 → n ∈ xs :=
  nodeLookup_btree (h.indexes.nsub g) hg hf

/-- Lookups in indexes on edges. -/
theorem C80_edges_btree {W : World} {hist : List (Nat × Option Op)} (h : SurvivedAll W hist) (g : Nat) {k : String} {t : SetTree}
    (hg : AMap.get (W.view g).edgeIx k = some (.btree t)) {v : Value} {r : Option (List Nat × Int)}
    (hf : (W.view g).edgesByValue k v = some r) :
    ∃ all xs, (W.view g).getEdgesWithProperty k = some all ∧ r = some (xs, (xs.length : Int)) ∧ xs.Nodup ∧
      (∀ e ∈ xs, e ∈ all ∧ ∃ w, (W.view g).edgeProperty e k = some w ∧ ∀ c, cmp v w = some c → c = 0) ∧
      ∀ e ∈ all, ∀ w, (W.view g).edgeProperty e k = some w → cmp v w = some 0 → e ∈ xs :=
  edgeLookup_btree (h.indexes.esub g).1 hg hf

theorem C80_edges_hash {W : World} {hist : List (Nat × Option Op)} (h : SurvivedAll W hist) (g : Nat) {k : String} {t : HashIx}
    (hg : AMap.get (W.view g).edgeIx k = some (.hash t)) {v : Value} {r : Option (List Nat × Int)}
    (hf : (W.view g).edgesByValue k v = some r) :
    ∃ all xs, (W.view g).getEdgesWithProperty k = some all ∧ r = some (xs, (xs.length : Int)) ∧ xs.Nodup ∧
      ∀ e ∈ xs, e ∈ all ∧ ∃ w, (W.view g).edgeProperty e k = some w ∧ bareValue w = bareValue v :=
  edgeLookup_hash (h.indexes.esub g).1 hg hf

/-- The index of graph `0` does not have the node at which it panicked; graph `1` has no index and finds its node. -/
theorem C80_indexes_example :
    (recoverAllFlags survivedAllOps).map (fun r => (r.1.view 0).nodesByValue "k" (.int 1)) = some (some (some ([0], 1))) ∧
    (recoverAllFlags survivedAllOps).map (fun r => (r.1.view 0).getNodesWithProperty "k") = some (some [0]) ∧
    (recoverAllFlags survivedAllOps).map (fun r => (r.1.view 1).getNodesWithProperty "k") = some (some [1, 3]) :=
  ⟨by decide +kernel, by decide +kernel, by decide +kernel⟩

end LPG
