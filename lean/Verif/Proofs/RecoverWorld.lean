import Verif.Proofs.WorldListing
import Verif.Spec.RecoverWorld
import Verif.Props.C74
import Verif.Proofs.LabelIndex
/-!
# Several graphs under recover

Without its indexes, the world is one that calls which return have made, apart from lost edges.
-/
namespace LPG
open State
namespace World

/-! ## Lists of calls -/

theorem runLostFrom_append (h' : List (Nat × Option Op)) : ∀ (h : List (Nat × Option Op)) (W : World),
    runLostFrom W (h ++ h') = (runLostFrom W h).bind (fun W => runLostFrom W h')
  | [], _ => rfl
  | (g, a) :: h, W => by
    rw [List.cons_append, runLostFrom, runLostFrom]
    cases W.stepLost g a with
    | none => rfl
    | some W1 => exact runLostFrom_append h' h W1

theorem specLost_append (h' : List (Nat × Option Op)) : ∀ (h : List (Nat × Option Op)) (ω : WSpec),
    WSpec.runLostFrom ω (h ++ h') = WSpec.runLostFrom (WSpec.runLostFrom ω h) h'
  | [], _ => rfl
  | (_, _) :: h, _ => specLost_append h' h _

theorem listingLost_append (k : Nat) (h' : List (Nat × Option Op)) : ∀ (h : List (Nat × Option Op)) (ω : WSpec) (v : Listing),
    WSpec.listingLostFrom k ω v (h ++ h') = WSpec.listingLostFrom k (WSpec.runLostFrom ω h) (WSpec.listingLostFrom k ω v h) h'
  | [], _, _ => rfl
  | (_, none) :: h, _, _ => listingLost_append k h' h _ _
  | (_, some _) :: h, _, _ => listingLost_append k h' h _ _

/-- the calls of a list on graph `g` -/
def onGraph (g : Nat) (eff : List Op) : List (Nat × Op) := eff.map (fun op => (g, op))

theorem runLost_made (g : Nat) : ∀ (eff : List Op) (W : World),
    runLostFrom W ((eff.map some).map (fun a => (g, a))) = World.runFrom W (onGraph g eff)
  | [], _ => rfl
  | op :: eff, W => by
    simp only [List.map_cons, runLostFrom, onGraph, World.runFrom, stepLost]
    cases W.step g op with
    | none => rfl
    | some r => exact runLost_made g eff r.1

theorem specLost_made (g : Nat) : ∀ (eff : List Op) (ω : WSpec),
    WSpec.runLostFrom ω ((eff.map some).map (fun a => (g, a))) = ω.runFrom (onGraph g eff)
  | [], _ => rfl
  | _ :: eff, _ => specLost_made g eff _

theorem listingLost_made (k g : Nat) : ∀ (eff : List Op) (ω : WSpec) (v : Listing),
    WSpec.listingLostFrom k ω v ((eff.map some).map (fun a => (g, a))) = ω.listingFrom k v (onGraph g eff)
  | [], _, _ => rfl
  | _ :: eff, _, _ => listingLost_made k g eff _ _

theorem step_self (ω : WSpec) (g : Nat) (op : Op) : (ω.step g op) g = (ω g).step op := by simp only [WSpec.step, if_true]

theorem validOn {g : Nat} : ∀ {eff : List Op} {ω : WSpec}, (ω g).ValidFrom eff → ω.ValidFrom (onGraph g eff)
  | [], _, _ => trivial
  | op :: eff, ω, h => ⟨h.1, validOn (eff := eff) (by rw [step_self]; exact h.2)⟩

/-! ## A lost edge -/

theorem view_lost (W : World) (g : Nat) : (W.store g (W.view g).leftNewEdge).view g = (W.view g).leftNewEdge := by
  simp [view, store, leftNewEdge]

theorem view_lost_other (W : World) {g h : Nat} (hh : h ≠ g) :
    (W.store g (W.view g).leftNewEdge).view h = { W.view h with idBase := W.heap.idBase + 1 } := by
  simp [view, store, leftNewEdge, upd_other _ _ hh]

theorem Rep.lost {W : World} {ω : WSpec} (r : Rep W ω) (g : Nat) :
    Rep (W.store g (W.view g).leftNewEdge) (ω.stepLost g none) := by
  refine ⟨⟨fun h => ?_, fun x h hx => Nat.lt_succ_of_lt (r.inv.nodeLt x h hx), fun x hx => Nat.lt_succ_of_lt (r.inv.edgeLt x hx),
    r.inv.known⟩, fun h => ?_, r.ownN, r.ownE⟩
  · have c := r.inv.closed h
    by_cases hh : h = g
    · subst hh
      rw [view_lost]
      exact ⟨c.head, c.tail, c.link, c.ends, c.maps, ⟨c.all.1, (fun _ _ hp => absurd hp List.not_mem_nil)⟩, c.sl0, c.sl1, c.sl2, c.lbl, c.nix, c.eix⟩
    · rw [view_lost_other W hh]
      exact ⟨c.head, c.tail, c.link, c.ends, c.maps, c.all, c.sl0, c.sl1, c.sl2, c.lbl, c.nix, c.eix⟩
  · have c := r.core h
    have key : ∀ s' : State, s' = (W.view g).leftNewEdge ∧ h = g ∨ s' = { W.view h with idBase := W.heap.idBase + 1 } →
        Core s' (ω.stepLost g none h) := by
      rintro s' (⟨rfl, rfl⟩ | rfl)
      · exact ⟨congrArg (· + 1) c.next, c.nNodup, c.eNodup, fun n hn => Nat.lt_succ_of_lt (c.nLt n hn),
          fun n hn => Nat.lt_succ_of_lt (c.eLt n hn), c.disj, c.labels, c.nprops, c.eattr, c.eprops, c.ends, c.out, c.inc, c.count⟩
      · exact ⟨congrArg (· + 1) c.next, c.nNodup, c.eNodup, fun n hn => Nat.lt_succ_of_lt (c.nLt n hn),
          fun n hn => Nat.lt_succ_of_lt (c.eLt n hn), c.disj, c.labels, c.nprops, c.eattr, c.eprops, c.ends, c.out, c.inc, c.count⟩
    by_cases hh : h = g
    · subst hh; exact key _ (.inl ⟨view_lost W h, rfl⟩)
    · exact key _ (.inr (view_lost_other W hh))

theorem Ordered.lost {W : World} {ω : WSpec} (r : Ordered W ω) (g : Nat) :
    Ordered (W.store g (W.view g).leftNewEdge) (ω.stepLost g none) := by
  refine ⟨fun h => ?_, fun h => ?_, fun h => ?_⟩
  · have m := r.nodes h
    have m' : Mono (W.view h).nptr (W.view h).allNodes (W.heap.idBase + 1) :=
      ⟨fun x hx => Nat.lt_succ_of_lt (m.head x hx), fun x hx => Nat.lt_succ_of_lt (m.tail x hx),
        fun x y hx => ⟨(m.next x y hx).1, Nat.lt_succ_of_lt (m.next x y hx).2⟩, m.prev⟩
    by_cases hh : h = g
    · subst hh; rw [view_lost]; exact m'
    · rw [view_lost_other W hh]; exact m'
  · have m := EMono.le (r.edges h) (Nat.le_succ W.heap.idBase)
    by_cases hh : h = g
    · subst hh; rw [view_lost]; exact ⟨m.slot, (fun p hp => by cases hp), m.only⟩
    · rw [view_lost_other W hh]; exact m
  · have k := r.kept h
    by_cases hh : h = g
    · subst hh; rw [view_lost]; exact ⟨k.labels, k.nprops, k.eattr, k.eprops⟩
    · rw [view_lost_other W hh]; exact ⟨k.labels, k.nprops, k.eattr, k.eprops⟩

theorem Showing.lost {W : World} {ω : WSpec} {k : Nat} {v : Listing} (h : Showing W ω k v) (g : Nat) :
    Showing (W.store g (W.view g).leftNewEdge) (ω.stepLost g none) k v := by
  refine ⟨?_, h.own⟩
  have := h.shows.later (Nat.le_succ _)
  by_cases hh : k = g
  · subst hh; rw [view_lost]; exact this
  · rw [view_lost_other W hh]; exact this

/-! ## Labels -/

/-- The label index of every graph files the nodes of the graph. -/
def Filed (W : World) (ω : WSpec) : Prop := ∀ g, LblRep (W.view g) (ω g)

theorem In.members {nm : NodeMap} {N : Nat → Prop} (h : nm.In N) (ok : nm.Ok) {l : String} {n : Nat} (hn : n ∈ nm.members l) : N n := by
  unfold NodeMap.members at hn
  split at hn
  · cases hn
  · rename_i fs hg
    obtain ⟨p, hp, rfl⟩ := List.mem_map.1 hn
    rw [← (ok.sets l fs hg).same p hp]
    exact h l fs (AMap.mem_of_get hg) p hp

theorem Filed.init : Filed World.new WSpec.new := fun _ => LblRep.init

theorem Filed.step {W W' : World} {ω : WSpec} (f : Filed W ω) (r : Rep W ω) {g : Nat} {op : Op} {b : Bool}
    (hv : (ω g).Valid op) (hs : W.step g op = some (W', b)) : Filed W' (ω.step g op) := by
  obtain ⟨_, _, hs1, ag⟩ := r.step hv hs
  have hb := r.base_le hv hs
  intro h
  by_cases hh : h = g
  · subst hh
    have e : (ω.step h op) h = (ω h).step op := by simp only [WSpec.step, if_true]
    rw [e]
    exact (f h).step (r.core h) hv hs1
  · have a := ag h hh
    have e : ((ω.step g op) h).nodes = (ω h).nodes := by simp only [WSpec.step, if_neg hh]
    have hb : (W.view h).idBase ≤ (W'.view h).idBase := hb
    refine ⟨by rw [a.byLabel]; exact (f h).ok, ?_, ?_, ?_⟩
    · intro n hn l hl
      rw [e] at hn
      rw [(a.node n (r.ownN h n hn)).2.2.1] at hl
      rw [a.byLabel]
      exact (f h).filed n hn l hl
    · intro n l hn hl
      rw [a.byLabel] at hn
      rw [(a.node n (In.members (r.inv.closed h).lbl (f h).ok hn)).2.2.1] at hl
      rw [e]
      exact (f h).alive n l hn hl
    · intro n l hn
      rw [a.byLabel] at hn
      exact Nat.lt_of_lt_of_le ((f h).old n l hn) hb

theorem Filed.runFrom : ∀ {ops : List (Nat × Op)} {W W' : World} {ω : WSpec}, Filed W ω → Rep W ω → ω.ValidFrom ops →
    World.runFrom W ops = some W' → Filed W' (ω.runFrom ops)
  | [], W, W', ω, o, _, _, h => by cases h; exact o
  | (g, op) :: ops, W, W', ω, o, r, hv, h => by
    rw [World.runFrom] at h
    split at h
    · cases h
    · rename_i W1 b h1
      exact Filed.runFrom (ops := ops) (ω := ω.step g op) (o.step r hv.1 h1) (r.step hv.1 h1).2.1 hv.2 h

theorem Filed.lost {W : World} {ω : WSpec} (f : Filed W ω) (g : Nat) :
    Filed (W.store g (W.view g).leftNewEdge) (ω.stepLost g none) := by
  intro h
  by_cases hh : h = g
  · subst hh; rw [view_lost]; exact (f h).congr rfl rfl (Nat.le_succ _) rfl
  · rw [view_lost_other W hh]; exact (f h).congr rfl rfl (Nat.le_succ _) rfl

/-! ## Calls without allocation, and one call -/

def NoAlloc (op : Op) : Prop := ∀ (W : World) (t : Nat), W.alloc t op = W

/-- What a list of calls on graph `g` has made of `W0`. -/
structure Made (g : Nat) (W0 : World) (A : World) (s : State) (W1 : World) : Prop where
  nodes : W1.nodeGraph = A.nodeGraph
  edges : W1.isEdge = A.isEdge
  view : W1.view g = s
  root : ∀ h, h ≠ g → W1.root h = W0.root h

theorem made_one {g : Nat} {W0 : World} {ω : WSpec} {op : Op} {s : State} (r : Rep W0 ω) (hv : (ω g).Valid op)
    (h : LPG.step (W0.view g) op = some s) :
    ∃ W1, World.runFrom W0 (onGraph g [op]) = some W1 ∧ Made g W0 (W0.alloc g op) s W1 := by
  obtain ⟨h1, h2⟩ := r.target hv
  refine ⟨(W0.alloc g op).store g s, ?_, ⟨rfl, rfl, view_store, fun k hk => ?_⟩⟩
  · simp only [onGraph, List.map_cons, List.map_nil, World.runFrom, World.step, h1, h2, h, Bool.false_eq_true, if_false]
  · simp only [store, upd_other _ _ hk]
    cases op <;> rfl

theorem made_list {g : Nat} : ∀ {eff : List Op} {W0 : World} {ω : WSpec} {s : State}, (∀ op ∈ eff, NoAlloc op) → Rep W0 ω →
    (ω g).ValidFrom eff → LPG.runFrom (W0.view g) eff = some s →
    ∃ W1, World.runFrom W0 (onGraph g eff) = some W1 ∧ Made g W0 W0 s W1
  | [], W0, ω, s, _, _, _, h => by cases h; exact ⟨W0, rfl, ⟨rfl, rfl, rfl, fun _ _ => rfl⟩⟩
  | op :: eff, W0, ω, s, ha, r, hv, h => by
    rw [LPG.runFrom] at h
    split at h
    · cases h
    · rename_i s1 hs1
      obtain ⟨W1, h1, m1⟩ := made_one r hv.1 hs1
      rw [ha op (by simp)] at m1
      have r1 := r.runFrom (ops := onGraph g [op]) ⟨hv.1, trivial⟩ h1
      rw [← m1.view] at h
      obtain ⟨W2, h2, m2⟩ := made_list (fun x hx => ha x (by simp [hx])) r1 (by
        have : (ω.runFrom (onGraph g [op])) g = (ω g).step op := step_self ω g op
        rw [this]; exact hv.2) h
      refine ⟨W2, ?_, ⟨m2.nodes.trans m1.nodes, m2.edges.trans m1.edges, m2.view, fun k hk => (m2.root k hk).trans (m1.root k hk)⟩⟩
      simp only [onGraph, List.map_cons, List.map_nil, World.runFrom] at h1 ⊢
      split at h1
      · cases h1
      · rename_i W3 b h3
        cases h1
        exact h2

/-- What a call under `recover` leaves is, without indexes, what the calls that it amounts to make. -/
theorem Bared.made {g : Nat} {W0 W W1 : World} {op : Op} {s' : State} (h : Bared W0 W) (m : Made g W0 (W0.alloc g op) s'.bare W1) :
    Bared W1 ((W.alloc g op).store g s') := by
  have hb : W0.heap.idBase = W.heap.idBase := by have := congrArg State.idBase (h.view g); exact this
  refine ⟨?_, ?_, fun k => ?_⟩
  · rw [m.nodes]
    cases op <;> simp only [alloc, store, h.nodes, hb]
  · rw [m.edges]
    cases op <;> simp only [alloc, store, h.edges, hb]
  · by_cases hk : k = g
    · subst hk; rw [view_store]; exact m.view
    · have e1 : W1.view k = { W1.view g with allNodes := (W1.root k).allNodes, allEdges := (W1.root k).allEdges, byLabel := (W1.root k).byLabel, nodeIx := (W1.root k).nodeIx, edgeIx := (W1.root k).edgeIx } := rfl
      rw [e1, m.view, m.root k hk]
      have e2 : ((W.alloc g op).store g s').root k = W.root k := by
        simp only [store, upd_other _ _ hk]
        cases op <;> rfl
      have e3 : ((W.alloc g op).store g s').view k = { s' with allNodes := (W.root k).allNodes, allEdges := (W.root k).allEdges, byLabel := (W.root k).byLabel, nodeIx := (W.root k).nodeIx, edgeIx := (W.root k).edgeIx } := by
        rw [← e2]; rfl
      rw [e3]
      have q := h.view k
      have q1 : (W0.root k).allNodes = (W.root k).allNodes := congrArg State.allNodes q
      have q2 : (W0.root k).allEdges = (W.root k).allEdges := congrArg State.allEdges q
      have q3 : (W0.root k).byLabel = (W.root k).byLabel := congrArg State.byLabel q
      have q4 : (W0.root k).nodeIx = [] := congrArg State.nodeIx q
      have q5 : (W0.root k).edgeIx = [] := congrArg State.edgeIx q
      rw [q1, q2, q3, q4, q5]
      rfl

theorem Bared.lost {g : Nat} {W0 W : World} (h : Bared W0 W) :
    Bared (W0.store g (W0.view g).leftNewEdge) (W.store g (W.view g).leftNewEdge) := by
  have hb : W0.heap.idBase = W.heap.idBase := by have := congrArg State.idBase (h.view g); exact this
  refine ⟨h.nodes, h.edges, fun k => ?_⟩
  by_cases hk : k = g
  · subst hk; rw [view_lost, view_lost, h.view]; rfl
  · rw [view_lost_other _ hk, view_lost_other _ hk, h.view, hb]; rfl

theorem Bared.index {g : Nat} {W0 W : World} (h : Bared W0 W) (k : String) (ty : IndexType) :
    Bared W0 (W.store g ((W.view g).leftEdgeIndex k ty)) := by
  refine ⟨h.nodes, h.edges, fun j => ?_⟩
  by_cases hk : j = g
  · subst hk
    have : (W.store j ((W.view j).leftEdgeIndex k ty)).view j = (W.view j).leftEdgeIndex k ty := by
      simp only [World.view, store, upd_same]
    rw [this, h.view]; rfl
  · have : (W.store g ((W.view g).leftEdgeIndex k ty)).view j = W.view j := by
      simp only [World.view, store, upd_other _ _ hk, leftEdgeIndex]
    rw [this]; exact h.view j

/-! ## The invariant -/

/-- what holds of every world that such a program reaches -/
structure SoundAll (W0 W : World) (hist : List (Nat × Option Op)) : Prop where
  bared : Bared W0 W
  rep : Rep W0 (WSpec.runLost hist)
  ordered : Ordered W0 (WSpec.runLost hist)
  shows : ∀ k, Showing W0 (WSpec.runLost hist) k (WSpec.listingLost k hist)
  filed : Filed W0 (WSpec.runLost hist)

theorem SoundAll.core {W0 W : World} {hist : List (Nat × Option Op)} (h : SoundAll W0 W hist) (g : Nat) :
    Core (W.view g).bare (WSpec.runLost hist g) := by
  rw [← h.bared.view]; exact h.rep.core g

theorem SoundAll.all {W0 W : World} {hist : List (Nat × Option Op)} (h : SoundAll W0 W hist) (g : Nat) : (W.view g).AllMono := by
  have := h.ordered.edges g
  rw [h.bared.view] at this
  exact this

theorem SoundAll.made {W0 W1 W W' : World} {hist : List (Nat × Option Op)} (h : SoundAll W0 W hist) {g : Nat} {eff : List Op}
    (hv : (WSpec.runLost hist g).ValidFrom eff) (hr : World.runFrom W0 (onGraph g eff) = some W1) (hb : Bared W1 W') :
    SoundAll W1 W' (hist ++ (eff.map some).map (fun a => (g, a))) := by
  have e : WSpec.runLost (hist ++ (eff.map some).map (fun a => (g, a))) = (WSpec.runLost hist).runFrom (onGraph g eff) := by
    rw [WSpec.runLost, specLost_append, specLost_made]; rfl
  have hv' := validOn hv
  refine ⟨hb, ?_, ?_, fun k => ?_, ?_⟩
  · rw [e]; exact h.rep.runFrom hv' hr
  · rw [e]; exact h.ordered.runFrom h.rep hv' hr
  · rw [e, WSpec.listingLost, listingLost_append, listingLost_made]
    exact (h.shows k).runFrom h.rep hv' hr
  · rw [e]; exact h.filed.runFrom h.rep hv' hr

theorem SoundAll.lost {W0 W : World} {hist : List (Nat × Option Op)} (h : SoundAll W0 W hist) (g : Nat) :
    SoundAll (W0.store g (W0.view g).leftNewEdge) (W.store g (W.view g).leftNewEdge) (hist ++ [(g, none)]) := by
  have e : WSpec.runLost (hist ++ [(g, none)]) = (WSpec.runLost hist).stepLost g none := by
    rw [WSpec.runLost, specLost_append]; rfl
  refine ⟨h.bared.lost, ?_, ?_, fun k => ?_, ?_⟩
  · rw [e]; exact h.rep.lost g
  · rw [e]; exact h.ordered.lost g
  · rw [e, WSpec.listingLost, listingLost_append]
    exact (h.shows k).lost g
  · rw [e]; exact h.filed.lost g

/-! ## One call -/

theorem recover_cases {W W' : World} {g : Nat} {op : Op} {b : Bool} {o : MapOrder} (ht : W.target g op = some g)
    (hf : W.foreign g op = false) (h : W.recoverStep o g op = some (W', b)) :
    (∃ s', tryStep o (W.view g) op = some (s', b) ∧ W' = (W.alloc g op).store g s') ∨
    tryStep o (W.view g) op = none ∧ (W.view g).NilEdge ∧ b = true ∧
      ((∃ x y l ps, op = .newEdge x y l ps ∧ W' = W.store g (W.view g).leftNewEdge) ∨
        ∃ k t, op = .addEdgeIndex k t ∧ W' = W.store g ((W.view g).leftEdgeIndex k t)) := by
  unfold recoverStep at h
  simp only [ht, hf, Bool.false_eq_true, if_false] at h
  cases hr : tryStep o (W.view g) op with
  | some r => rw [hr] at h; cases h; exact .inl ⟨_, rfl, rfl⟩
  | none =>
    rw [hr] at h
    simp only at h
    split at h
    · rename_i hnil
      refine .inr ⟨rfl, hnil, ?_⟩
      cases op <;> first | cases h | skip
      · exact ⟨rfl, .inl ⟨_, _, _, _, rfl, rfl⟩⟩
      · exact ⟨rfl, .inr ⟨_, _, rfl, rfl⟩⟩
    · cases h

theorem SoundAll.target {W0 W : World} {hist : List (Nat × Option Op)} (h : SoundAll W0 W hist) {g : Nat} {op : Op}
    (hv : (WSpec.runLost hist g).Valid op) : W.target g op = some g ∧ W.foreign g op = false := by
  obtain ⟨h1, h2⟩ := h.rep.target hv
  have e1 : W0.heap.eFrom = W.heap.eFrom := (show (W0.view 0).eFrom = (W.view 0).eFrom by rw [h.bared.view 0]; rfl)
  constructor
  · rw [← h1]
    cases op <;> simp only [World.target, edgeGraph, h.bared.nodes, h.bared.edges, e1]
  · rw [← h2]
    cases op <;> simp only [World.foreign, h.bared.nodes]

theorem amounts_made {g : Nat} {W0 : World} {ω : WSpec} {op : Op} {b : Bool} {eff : List Op} {s : State} (r : Rep W0 ω)
    (hv : (ω g).Valid op) (ha : (ω g).Amounts op b eff) (h : LPG.runFrom (W0.view g) eff = some s) :
    ∃ W1, World.runFrom W0 (onGraph g eff) = some W1 ∧ Made g W0 (W0.alloc g op) s W1 := by
  have hve := ha.valid hv
  have one : ∀ op, (ω g).Valid op → LPG.runFrom (W0.view g) [op] = some s →
      ∃ W1, World.runFrom W0 (onGraph g [op]) = some W1 ∧ Made g W0 (W0.alloc g op) s W1 := by
    intro op hv h
    rw [LPG.runFrom] at h
    split at h
    · cases h
    · rename_i s1 hs1; cases h; exact made_one r hv hs1
  cases ha with
  | detach_some n es he hn h0 =>
    exact made_list (fun op hop => by obtain ⟨e, -, rfl⟩ := List.mem_map.1 hop; exact fun _ _ => rfl) r hve h
  | detachRemove_some n es he hn h0 =>
    exact made_list (fun op hop => by obtain ⟨e, -, rfl⟩ := List.mem_map.1 hop; exact fun _ _ => rfl) r hve h
  | _ => first | exact one _ hv h | exact made_list (by simp) r hve h

end World
end LPG
