import Verif.Proofs.Clone
import Verif.Proofs.RecoverWorld
/-!
# C80: several graphs in a program that recovers from every panic

The theorems range over programs with any number of graphs on one heap that recover from any number of panics
(`Verif.Model.RecoverWorld`, `Verif.Spec.RecoverWorld`).
-/
namespace LPG
open World

/-- what holds of every world of such a program -/
def Sane (W : World) (hist : List (Nat × Option Op)) : Prop :=
  ∃ W0, World.runLost hist = some W0 ∧ SoundAll W0 W hist ∧ W.heap.PropsOk

theorem Sane.call {W W' W1 : World} {hist : List (Nat × Option Op)} {eff : List (Option Op)} {g : Nat} {op : Op} {b : Bool}
    {o : MapOrder} (h : Sane W hist) (hv : (WSpec.runLost hist g).Valid op) (hs : W.recoverStep o g op = some (W', b))
    (ha : (WSpec.runLost hist g).AmountsLost op b eff)
    (hl : eff = [none] ↔ (W.view g).getEdges = none ∧ ∃ x y l ps, op = .newEdge x y l ps)
    (hr : World.runLost (hist ++ eff.map (fun a => (g, a))) = some W1) (hb : World.Bared W1 W') :
    Sane W' (hist ++ eff.map (fun a => (g, a))) := by
  obtain ⟨W0, hr0, hd, hp⟩ := h
  refine ⟨W1, hr, ?_⟩
  have hr : World.runLostFrom World.new (hist ++ eff.map (fun a => (g, a))) = some W1 := hr
  have hr0' : World.runLostFrom World.new hist = some W0 := hr0
  rw [World.runLostFrom_append, hr0', Option.bind_some] at hr
  obtain ⟨ht, hf⟩ := hd.target hv
  rcases recover_cases ht hf hs with ⟨s', hs', rfl⟩ | ⟨hn, hnil, rfl, ⟨x, y, l, ps, rfl, rfl⟩ | ⟨k, t, rfl, rfl⟩⟩
  · have hp' : s'.PropsOk := PropsOk.step (s := W.view g) hp hv hs'
    refine ⟨?_, hp'⟩
    cases ha with
    | made ha =>
      rw [runLost_made] at hr
      exact hd.made (ha.valid hv) hr hb
    | lost x y l ps =>
      rw [newEdge_nil ((nilEdge_iff (hd.all g)).1 (hl.1 rfl).1)] at hs'
      cases hs'
  · refine ⟨?_, hp⟩
    rw [hl.2 ⟨(nilEdge_iff (hd.all g)).2 hnil, x, y, l, ps, rfl⟩] at hr ⊢
    cases hr
    exact hd.lost g
  · refine ⟨?_, hp⟩
    cases ha with
    | made ha =>
      cases ha
      cases hr
      rw [List.map_nil, List.map_nil, List.append_nil]
      exact ⟨hb, hd.rep, hd.ordered, hd.shows, hd.filed⟩

theorem Sane.step {W : World} {hist : List (Nat × Option Op)} (h : Sane W hist) {g : Nat} {op : Op}
    (hv : (WSpec.runLost hist g).Valid op) {o : MapOrder} {W' : World} {b : Bool} (hs : W.recoverStep o g op = some (W', b)) :
    ∃ eff, (WSpec.runLost hist g).AmountsLost op b eff ∧
      (eff = [none] ↔ (W.view g).getEdges = none ∧ ∃ x y l ps, op = .newEdge x y l ps) ∧
      Sane W' (hist ++ eff.map (fun a => (g, a))) := by
  obtain ⟨W0, hr0, hd, _⟩ := id h
  have hr0 : World.runLostFrom World.new hist = some W0 := hr0
  have key : ∀ eff W1, (WSpec.runLost hist g).AmountsLost op b eff →
      (eff = [none] ↔ (W.view g).getEdges = none ∧ ∃ x y l ps, op = .newEdge x y l ps) →
      World.runLostFrom W0 (eff.map (fun a => (g, a))) = some W1 → World.Bared W1 W' →
      ∃ eff, (WSpec.runLost hist g).AmountsLost op b eff ∧
        (eff = [none] ↔ (W.view g).getEdges = none ∧ ∃ x y l ps, op = .newEdge x y l ps) ∧
        Sane W' (hist ++ eff.map (fun a => (g, a))) := by
    intro eff W1 h1 h2 h3 h4
    refine ⟨eff, h1, h2, h.call hv hs h1 h2 (W1 := W1) ?_ h4⟩
    show World.runLostFrom World.new _ = some W1
    rw [World.runLostFrom_append, hr0]
    exact h3
  obtain ⟨ht, hf⟩ := hd.target hv
  rcases recover_cases ht hf hs with ⟨s', hs', rfl⟩ | ⟨hn, hnil, rfl, ⟨x, y, l, ps, rfl, rfl⟩ | ⟨k, t, rfl, rfl⟩⟩
  · obtain ⟨eff, ha, hr⟩ := tryStep_amounts (hd.core g) hv hs'
    rw [← hd.bared.view] at hr
    obtain ⟨W1, h1, m1⟩ := amounts_made hd.rep hv ha hr
    refine key _ W1 (.made ha) ⟨fun hc => ?_, ?_⟩ (by rw [runLost_made]; exact h1) (hd.bared.made m1)
    · cases eff with
      | nil => cases hc
      | cons a l => simp at hc
    · rintro ⟨hn, x, y, l, ps, rfl⟩
      rw [newEdge_nil ((nilEdge_iff (hd.all g)).1 hn)] at hs'
      cases hs'
  · exact key _ _ (.lost x y l ps) ⟨fun _ => ⟨(nilEdge_iff (hd.all g)).2 hnil, x, y, l, ps, rfl⟩, fun _ => rfl⟩ rfl hd.bared.lost
  · exact key [] W0 (.made (.addEdgeIndex k t true)) ⟨by simp, by rintro ⟨_, _, _, _, _, hc⟩; cases hc⟩ rfl (hd.bared.index k t)

/-- Worlds that differ in indexes only. -/
theorem Sane.reindex {W W' : World} {hist : List (Nat × Option Op)} (h : Sane W hist) (hn : W'.nodeGraph = W.nodeGraph)
    (he : W'.isEdge = W.isEdge) (hv : ∀ g, (W'.view g).bare = (W.view g).bare) : Sane W' hist := by
  obtain ⟨W0, hr, hd, hp⟩ := h
  refine ⟨W0, hr, ⟨⟨hd.bared.nodes.trans hn.symm, hd.bared.edges.trans he.symm, fun g => by rw [hd.bared.view, hv]⟩, hd.rep, hd.ordered,
    hd.shows, hd.filed⟩, ?_⟩
  have h1 : W'.heap.nProps = W.heap.nProps := show (W'.view 0).bare.nProps = (W.view 0).bare.nProps by rw [hv]
  have h2 : W'.heap.eProps = W.heap.eProps := show (W'.view 0).bare.eProps = (W.view 0).bare.eProps by rw [hv]
  exact ⟨fun n => by rw [h1]; exact hp.1 n, fun n => by rw [h2]; exact hp.2 n⟩

/-- The copy of a node is `NewNode`, apart from the indexes. -/
theorem Sane.newNode {W : World} {hist : List (Nat × Option Op)} (h : Sane W hist) {s t n : Nat} (hn : W.N s n)
    (f : String → Value → Value) {ps : Props} (hps : ps.Perm (cloneProps f (W.heap.nProps n))) :
    (WSpec.runLost hist t).Valid (.newNode (W.heap.nLabels n) ps) ∧
    W.recoverStep .listed t (.newNode (W.heap.nLabels n) ps) =
      some ({ W with nodeGraph := upd W.nodeGraph W.heap.idBase (some t) }.store t ((W.view t).tryNewNode (W.heap.nLabels n) ps).1,
        ((W.view t).tryNewNode (W.heap.nLabels n) ps).2) := by
  obtain ⟨W0, _, hd, _⟩ := h
  have hk := hd.ordered.kept s
  rw [hd.bared.view] at hk
  have hn0 : W0.N s n := by rw [← (show W.N s = W0.N s by funext x; simp only [World.N, hd.bared.nodes])]; exact hn
  have hl : (W.heap.nLabels n).Nodup := (hk.labels n hn0).1
  have hp : (AMap.keys (W.heap.nProps n)).Nodup := (hk.nprops n hn0).1
  refine ⟨?_, ?_⟩
  · show (AMap.keys ps).Nodup
    have : (AMap.keys (cloneProps f (W.heap.nProps n))).Nodup := by rw [cloneProps_keys]; exact hp
    exact (hps.map Prod.fst).nodup_iff.2 this
  · have e : newStringSet (W.heap.nLabels n) = W.heap.nLabels n := eraseDups_nodup hl
    simp only [World.recoverStep, target, foreign, tryStep, e, Bool.false_eq_true, if_false]
    rfl

theorem Sane.cloneNode {W : World} {hist : List (Nat × Option Op)} (h : Sane W hist) {s t n : Nat} (hn : W.N s n) (o : MapOrder)
    (f : String → Value → Value) :
    Sane (W.tryCloneNode o t n f).1 (hist ++ [(t, some (.newNode (W.heap.nLabels n) (cloneProps f (W.heap.nProps n))))]) := by
  obtain ⟨hv, hs⟩ := h.newNode hn (t := t) f (.refl _)
  obtain ⟨eff, ha, _, hS⟩ := h.step hv hs
  cases ha with
  | made ha =>
    cases ha
    refine Sane.reindex hS rfl rfl (fun g => ?_)
    by_cases hg : g = t
    · subst hg
      simp only [tryCloneNode, World.view, store, upd_same]; rfl
    · simp only [tryCloneNode, World.view, store, upd_other _ _ hg]

/-- The copy of an edge is `NewEdge`, apart from the indexes. -/
theorem Sane.newEdge {W : World} {hist : List (Nat × Option Op)} (h : Sane W hist) {s t e x y : Nat} (he : W.E s e)
    (hx : x ∈ (WSpec.runLost hist t).nodes) (hy : y ∈ (WSpec.runLost hist t).nodes)
    (f : String → Value → Value) {ps : Props} (hps : ps.Perm (cloneProps f (W.heap.eProps e))) :
    (WSpec.runLost hist t).Valid (.newEdge x y (W.heap.eLabel e) ps) ∧ W.nodeGraph x = some t ∧ W.nodeGraph y = some t ∧
    W.recoverStep .listed t (.newEdge x y (W.heap.eLabel e) ps) =
      match (W.view t).tryNewEdge x y (W.heap.eLabel e) ps with
      | some r => some ({ W with isEdge := upd W.isEdge W.heap.idBase true }.store t r.1, r.2)
      | none => if (W.view t).NilEdge then some (W.store t (W.view t).leftNewEdge, true) else none := by
  obtain ⟨W0, _, hd, hp⟩ := h
  have hv : (WSpec.runLost hist t).Valid (.newEdge x y (W.heap.eLabel e) ps) := by
    refine ⟨hx, hy, ?_⟩
    have : (AMap.keys (cloneProps f (W.heap.eProps e))).Nodup := by rw [cloneProps_keys]; exact hp.2 e
    exact (hps.map Prod.fst).nodup_iff.2 this
  obtain ⟨ht, hf⟩ := hd.target hv
  refine ⟨hv, ?_, ?_, ?_⟩
  · rw [← hd.bared.nodes]; exact hd.rep.ownN t x hx
  · rw [← hd.bared.nodes]; exact hd.rep.ownN t y hy
  · unfold World.recoverStep
    simp only [ht, hf, Bool.false_eq_true, if_false, tryStep]
    cases (W.view t).tryNewEdge x y (W.heap.eLabel e) ps <;> rfl

theorem Sane.cloneEdge {W W' : World} {hist : List (Nat × Option Op)} (h : Sane W hist) {s t e x y i : Nat} {b : Bool} (he : W.E s e)
    (hx : x ∈ (WSpec.runLost hist t).nodes) (hy : y ∈ (WSpec.runLost hist t).nodes) {o : MapOrder} {f : String → Value → Value}
    (hc : W.tryCloneEdge o t (some x) (some y) e f = some (W', i, b)) :
    Sane W' (hist ++ [(t, if (W.view t).getEdges = none then none
      else some (.newEdge x y (W.heap.eLabel e) (cloneProps f (W.heap.eProps e))))]) := by
  obtain ⟨hv, gx, gy, hs⟩ := h.newEdge he hx hy f (.refl _)
  unfold tryCloneEdge at hc
  simp only [gx, gy, ne_eq, not_true, if_false] at hc
  cases hn : (W.view t).tryNewEdge x y (W.heap.eLabel e) (cloneProps f (W.heap.eProps e)) with
  | none =>
    rw [hn] at hc hs
    simp only at hc hs
    split at hc
    · rename_i hnil
      cases hc
      rw [if_pos hnil] at hs
      obtain ⟨eff, ha, hl, hS⟩ := h.step hv hs
      obtain ⟨_, _, hd, _⟩ := h
      have hg := (nilEdge_iff (hd.all t)).2 hnil
      rw [hl.2 ⟨hg, _, _, _, _, rfl⟩] at hS
      rw [if_pos hg]
      exact hS
    · cases hc
  | some r =>
    rw [hn] at hc hs
    simp only at hc hs
    obtain ⟨eff, ha, hl, hS⟩ := h.step hv hs
    cases hc
    have hg : (W.view t).getEdges ≠ none := by
      intro hg
      obtain ⟨_, _, hd, _⟩ := h
      have := newEdge_nil ((nilEdge_iff (hd.all t)).1 hg) .listed x y (W.heap.eLabel e) (cloneProps f (W.heap.eProps e))
      simp only [tryStep, hn] at this
      cases this
    rw [if_neg hg]
    obtain ⟨r1, r2⟩ := r
    cases ha with
    | made ha =>
      cases ha
      refine Sane.reindex hS rfl rfl (fun g => ?_)
      by_cases hg : g = t
      · subst hg
        simp only [World.view, store, upd_same]; rfl
      · simp only [World.view, store, upd_other _ _ hg]
    | lost => exact absurd (hl.1 rfl).1 hg

theorem SurvivedAll.sound {W : World} {hist : List (Nat × Option Op)} (h : SurvivedAll W hist) : Sane W hist := by
  induction h with
  | new =>
    exact ⟨World.new, rfl, ⟨⟨rfl, rfl, fun _ => rfl⟩, Rep.init, Ordered.init, fun k => Showing.init k, Filed.init⟩,
      ⟨fun _ => List.nodup_nil, fun _ => List.nodup_nil⟩⟩
  | call _ hv hs ha hl hr hb ih => exact ih.call hv hs ha hl hr hb
  | cloneNode _ hn ih => exact ih.cloneNode hn _ _
  | cloneEdge _ he hx hy hc ih => exact ih.cloneEdge he hx hy hc

/-- Every call on nodes and edges of its graph returns or panics; none runs forever. -/
theorem C80_returns {W : World} {hist : List (Nat × Option Op)} (h : SurvivedAll W hist) {g : Nat} {op : Op}
    (hv : (WSpec.runLost hist g).Valid op) (o : MapOrder) : ∃ W' b, W.recoverStep o g op = some (W', b) := by
  obtain ⟨W0, _, hd, _⟩ := h.sound
  obtain ⟨ht, hf⟩ := hd.target hv
  unfold World.recoverStep
  simp only [ht, hf, Bool.false_eq_true, if_false]
  cases hs : tryStep o (W.view g) op with
  | some r => exact ⟨_, _, rfl⟩
  | none =>
    have hm : Mono (W.view g).nptr (W.view g).allNodes (W.view g).idBase := by
      have := hd.ordered.nodes g
      rw [hd.bared.view] at this
      exact this
    have hn : ¬ ((W.view g).NeedsEdges op → (W.view g).getEdges ≠ none) := fun hc => tryStep_total (hd.core g) hm hc hv hs
    have h1 : (W.view g).NeedsEdges op := Classical.byContradiction (fun hc => hn (fun h => absurd h hc))
    have h2 : (W.view g).getEdges = none := Classical.byContradiction (fun hc => hn (fun _ => hc))
    dsimp only
    rw [if_pos ((nilEdge_iff (hd.all g)).1 h2)]
    cases op with
    | newEdge x y l ps => exact ⟨_, _, rfl⟩
    | addEdgeIndex k t => exact ⟨_, _, rfl⟩
    | _ => exact h1.elim

/-- Each call on nodes and edges of graph `g`, returning or panicking, amounts to the calls on `g` that `Spec.AmountsLost` names.
`NewEdge` is lost exactly if `GetEdges` of `g` would yield a nil edge. -/
theorem C80 {W : World} {hist : List (Nat × Option Op)} (h : SurvivedAll W hist) {g : Nat} {op : Op}
    (hv : (WSpec.runLost hist g).Valid op) {o : MapOrder} {W' : World} {b : Bool} (hs : W.recoverStep o g op = some (W', b)) :
    ∃ eff, (WSpec.runLost hist g).AmountsLost op b eff ∧
      (eff = [none] ↔ (W.view g).getEdges = none ∧ ∃ x y l ps, op = .newEdge x y l ps) ∧
      SurvivedAll W' (hist ++ eff.map (fun a => (g, a))) := by
  obtain ⟨eff, ha, hl, hS⟩ := h.sound.step hv hs
  obtain ⟨W1, hr, hd, _⟩ := id hS
  exact ⟨eff, ha, hl, .call h hv hs ha hl hr hd.bared⟩

/-- `NewEdge` with a node of another graph panics and changes nothing, after any such program. -/
theorem C80_foreign {W : World} {g x y : Nat} {l : String} {ps : Props} (o : MapOrder)
    (h : W.nodeGraph x ≠ some g ∨ W.nodeGraph y ≠ some g) : W.recoverStep o g (.newEdge x y l ps) = some (W, true) := by
  have hf : W.foreign g (.newEdge x y l ps) = true := by simpa [foreign] using h
  simp only [World.recoverStep, target, hf, if_true]

/-- What the program sees of each of its graphs: nodes, edges of nodes, labels and properties are those of the history, and the
listing is that of the history. -/
theorem C80_holds {W : World} {hist : List (Nat × Option Op)} (h : SurvivedAll W hist) (g : Nat) :
    Holds (W.view g) (WSpec.runLost hist g) ∧ (W.view g).getNodes = some (WSpec.listingLost g hist).nodes := by
  obtain ⟨W0, _, hd, _⟩ := h.sound
  have hc := hd.core g
  have hh := hc.holds
  refine ⟨⟨hh.numNodes, hh.labels, hh.nprop, hh.ends, hh.label, hh.eprop, hh.outgoing, hh.incoming, hh.distinct, hh.closed⟩, ?_⟩
  have := (hd.shows g).shows
  rw [hd.bared.view] at this
  exact NShows.getNodes (s := (W.view g).bare) hc this

theorem World.Rep.keeps {g : Nat} : ∀ {eff : List Op} {W W' : World} {ω : WSpec}, Rep W ω → (ω g).ValidFrom eff →
    World.runFrom W (onGraph g eff) = some W' →
    (∀ h, h ≠ g → Agree (W.N h) (W.E h) (W.view h) (W'.view h)) ∧ W.heap.idBase ≤ W'.heap.idBase ∧
    ∀ h x, (W.N h x → W'.N h x) ∧ (W.E h x → W'.E h x)
  | [], W, W', ω, _, _, hr => by cases hr; exact ⟨fun _ _ => .refl, Nat.le_refl _, fun _ _ => ⟨id, id⟩⟩
  | op :: eff, W, W', ω, r, hv, hr => by
    simp only [onGraph, List.map_cons, World.runFrom] at hr
    split at hr
    · cases hr
    · rename_i W1 b h1
      obtain ⟨_, r1, _, ag⟩ := r.step hv.1 h1
      obtain ⟨a1, l1, m1⟩ := keeps (eff := eff) r1 (by rw [step_self]; exact hv.2) hr
      have own : ∀ h x, (W.N h x → W1.N h x) ∧ (W.E h x → W1.E h x) := by
        obtain ⟨ht, hf⟩ := r.target hv.1
        obtain ⟨t, ht', ⟨hf', _, _⟩ | ⟨_, _, s, hs', rfl⟩⟩ := step_cases h1
        · rw [ht] at ht'; cases ht'; rw [hf] at hf'; cases hf'
        · rw [ht] at ht'; cases ht'
          intro h x
          obtain ⟨o1, o2⟩ := owners r.inv hf hs' h
          exact ⟨fun hx => (o1 x).2 (.inl hx), fun hx => (o2 x).2 (.inl hx)⟩
      exact ⟨fun h hh => (ag h hh).trans (a1 h hh) (fun x hx => (own h x).1 hx) (fun x hx => (own h x).2 hx),
        Nat.le_trans (r.base_le hv.1 h1) l1, fun h x => ⟨fun hx => (m1 h x).1 ((own h x).1 hx), fun hx => (m1 h x).2 ((own h x).2 hx)⟩⟩

theorem World.Bared.same {W0 W : World} (h : Bared W0 W) (k : Nat) : W.N k = W0.N k ∧ W.E k = W0.E k := by
  have h1 := h.nodes
  have h2 := h.edges
  have h3 : W0.heap.eFrom = W.heap.eFrom := show (W0.view 0).eFrom = (W.view 0).eFrom by rw [h.view 0]; rfl
  constructor
  · funext x; simp only [World.N, h1]
  · funext x; simp only [World.E, edgeGraph, h1, h2, h3]

/-- what a call on graph `g` leaves as it was -/
theorem Sane.keeps {W W' : World} {hist : List (Nat × Option Op)} (h : Sane W hist) {g : Nat} {op : Op}
    (hv : (WSpec.runLost hist g).Valid op) {o : MapOrder} {b : Bool} (hs : W.recoverStep o g op = some (W', b)) :
    (∀ k, k ≠ g → Agree (W.N k) (W.E k) (W.view k).bare (W'.view k).bare) ∧ W.heap.idBase ≤ W'.heap.idBase ∧
    ∀ k x, (W.N k x → W'.N k x) ∧ (W.E k x → W'.E k x) := by
  obtain ⟨W0, hr0, hd, _⟩ := id h
  obtain ⟨eff, ha, hl, hS⟩ := h.step hv hs
  obtain ⟨W1, hr1, hd1, _⟩ := hS
  have hb := hd1.bared
  have hr1 : World.runLostFrom World.new (hist ++ eff.map (fun a => (g, a))) = some W1 := hr1
  have hr0 : World.runLostFrom World.new hist = some W0 := hr0
  rw [World.runLostFrom_append, hr0, Option.bind_some] at hr1
  have key : (∀ k, k ≠ g → Agree (W0.N k) (W0.E k) (W0.view k) (W1.view k)) ∧ W0.heap.idBase ≤ W1.heap.idBase ∧
      ∀ k x, (W0.N k x → W1.N k x) ∧ (W0.E k x → W1.E k x) := by
    cases ha with
    | made ha =>
      rw [runLost_made] at hr1
      exact hd.rep.keeps (ha.valid hv) hr1
    | lost x y l ps =>
      cases hr1
      refine ⟨fun k hk => ?_, Nat.le_succ _, fun _ _ => ⟨id, id⟩⟩
      rw [view_lost_other _ hk]
      exact ⟨rfl, rfl, rfl, rfl, rfl, fun _ _ => ⟨rfl, rfl, rfl, rfl, rfl, rfl⟩, fun _ _ => ⟨rfl, rfl, rfl, rfl, rfl, rfl, rfl⟩⟩
  have b0 : W0.heap.idBase = W.heap.idBase := show (W0.view 0).idBase = (W.view 0).idBase by rw [hd.bared.view 0]; rfl
  have b1 : W1.heap.idBase = W'.heap.idBase := show (W1.view 0).idBase = (W'.view 0).idBase by rw [hb.view 0]; rfl
  refine ⟨fun k hk => ?_, by rw [← b0, ← b1]; exact key.2.1, fun k x => ?_⟩
  · rw [(hd.bared.same k).1, (hd.bared.same k).2, ← hd.bared.view, ← hb.view]
    exact key.1 k hk
  · rw [(hd.bared.same k).1, (hd.bared.same k).2, (hb.same k).1, (hb.same k).2]
    exact key.2.2 k x

/-- Without its indexes every graph is closed. -/
theorem Sane.closed {W : World} {hist : List (Nat × Option Op)} (h : Sane W hist) (k : Nat) :
    Closed (W.N k) (W.E k) (W.view k).bare ∧ (∀ x, W.N k x → x < W.heap.idBase) ∧ ∀ x, W.E k x → x < W.heap.idBase := by
  obtain ⟨W0, _, hd, _⟩ := id h
  have b0 : W0.heap.idBase = W.heap.idBase := show (W0.view 0).idBase = (W.view 0).idBase by rw [hd.bared.view 0]; rfl
  rw [(hd.bared.same k).1, (hd.bared.same k).2, ← hd.bared.view, ← b0]
  refine ⟨hd.rep.inv.closed k, fun x hx => hd.rep.inv.nodeLt x k hx, fun x hx => hd.rep.inv.edgeLt x ?_⟩
  unfold World.E edgeGraph at hx
  split at hx
  · assumption
  · cases hx

theorem World.Made.other {g h : Nat} (hh : h ≠ g) {W W' : World} {op : Op} {b : Bool} {o : MapOrder} (ht : W.target g op = some g)
    (hf : W.foreign g op = false) (hs : W.recoverStep o g op = some (W', b)) :
    (W'.view h).nodeIx = (W.view h).nodeIx ∧ (W'.view h).edgeIx = (W.view h).edgeIx := by
  have key : W'.root h = W.root h := by
    rcases recover_cases ht hf hs with ⟨s', _, rfl⟩ | ⟨_, _, _, ⟨x, y, l, ps, rfl, rfl⟩ | ⟨k, t, rfl, rfl⟩⟩
    · simp only [store, upd_other _ _ hh]
      cases op <;> rfl
    · simp only [store, upd_other _ _ hh]
    · simp only [store, upd_other _ _ hh]
  exact ⟨congrArg Root.nodeIx key, congrArg Root.edgeIx key⟩

/-- The programs of `Verif.Model.World` that do not panic are such programs. -/
theorem C80_histories (ops : List (Nat × Op)) (hv : WSpec.ValidHistory ops) (W : World) (hr : World.run ops = some W) :
    ∃ hist, SurvivedAll W hist ∧ WSpec.runLost hist = WSpec.run ops := by
  suffices H : ∀ (ops : List (Nat × Op)) (W0 : World) (hist : List (Nat × Option Op)), SurvivedAll W0 hist →
      (WSpec.runLost hist).ValidFrom ops → World.runFrom W0 ops = some W →
      ∃ hist', SurvivedAll W hist' ∧ WSpec.runLost hist' = (WSpec.runLost hist).runFrom ops from
    H ops World.new [] .new hv hr
  intro ops
  induction ops with
  | nil =>
    intro W0 hist h _ hr
    cases hr
    exact ⟨hist, h, rfl⟩
  | cons p ops ih =>
    obtain ⟨g, op⟩ := p
    intro W0 hist h hv hr
    rw [World.runFrom] at hr
    split at hr
    · cases hr
    · rename_i W1 b h1
      obtain ⟨_, _, hd, hp⟩ := h.sound
      obtain ⟨ht, hf⟩ := hd.target hv.1
      have hc : W0.recoverStep .listed g op = some (W1, false) := by
        unfold World.step at h1
        simp only [ht, hf, Bool.false_eq_true, if_false] at h1
        cases hs : LPG.step (W0.view g) op with
        | none => rw [hs] at h1; cases h1
        | some s =>
          rw [hs] at h1
          cases h1
          have := (tryStep_ok (o := .listed) (s := W0.view g) hp).1 hs
          simp only [World.recoverStep, ht, hf, Bool.false_eq_true, if_false, this]
      obtain ⟨eff, ha, _, hS⟩ := C80 h hv.1 hc
      cases ha with
      | @made _ _ eff ha =>
        have e : WSpec.runLost (hist ++ (eff.map some).map (fun a => (g, a))) = (WSpec.runLost hist).step g op := by
          rw [WSpec.runLost, specLost_append, specLost_made]
          cases ha <;> first | rfl | skip
          all_goals
            funext k
            by_cases hk : k = g
            · subst hk; simp only [WSpec.step, if_true]; rfl
            · have e1 : WSpec.runLost hist k = { WSpec.runLost hist k with next := (WSpec.runLost hist g).next } := by
                rw [(hd.rep.core g).next.symm.trans ((hd.rep.core k).next : _)]
              simp only [WSpec.step, if_neg hk]
              exact e1
        obtain ⟨hist', h2, h3⟩ := ih W1 _ hS (by rw [e]; exact hv.2) hr
        exact ⟨hist', h2, by rw [h3, e]; rfl⟩

/-! ## A program -/

/-- two graphs, `0` and `1`; in graph `0` a value cannot go into a btree index -/
def survivedAllOps : List (Nat × Op) :=
  [(0, .addNodeIndex "k" .btree), (0, .newNode ["A"] [("k", .int 1)]), (1, .newNode ["B"] [("k", .int 1)]),
    (0, .newNode [] [("k", .str "x")]), (1, .newNode [] [("k", .str "x")]), (0, .newEdge 0 1 "E" []), (0, .newEdge 0 2 "E" []),
    (1, .newEdge 1 3 "F" [])]

def recoverAllFlags (ops : List (Nat × Op)) : Option (World × List Bool) :=
  ops.foldl (fun o p => o.bind (fun (W, bs) => (W.recoverStep .listed p.1 p.2).map (fun (W, b) => (W, bs ++ [b]))))
    (some (World.new, []))

/-- such a program, at a world where a call panics -/
example : ∃ W hist, SurvivedAll W hist ∧ (WSpec.runLost hist 0).Valid (.newNode [] [("k", .str "x")]) ∧
    (W.recoverStep .listed 0 (.newNode [] [("k", .str "x")])).any (fun r => r.2) = true := by
  have h : (World.run (survivedAllOps.take 3)).any (fun W =>
      (W.recoverStep .listed 0 (.newNode [] [("k", .str "x")])).any (fun r => r.2)) = true := by decide +kernel
  cases hr : World.run (survivedAllOps.take 3) with
  | none => rw [hr] at h; cases h
  | some W =>
    rw [hr] at h
    obtain ⟨hist, h1, h2⟩ := C80_histories (survivedAllOps.take 3) (by decide +kernel) W hr
    exact ⟨W, hist, h1, by rw [h2]; decide +kernel, by simpa using h⟩

/-- The fourth call panics and its node is in graph `0`. The sixth is for nodes of two graphs and has no effect. -/
theorem C80_example :
    (recoverAllFlags survivedAllOps).map (fun r => r.2) = some [false, false, false, true, false, true, false, false] ∧
    (recoverAllFlags survivedAllOps).map (fun r => ((r.1.view 0).getNodes, (r.1.view 1).getNodes)) = some (some [0, 2], some [1, 3]) ∧
    (recoverAllFlags survivedAllOps).map (fun r => ((r.1.view 0).getEdges, (r.1.view 1).getEdges)) = some (some [4], some [5]) :=
  ⟨by decide +kernel, by decide +kernel, by decide +kernel⟩

end LPG
