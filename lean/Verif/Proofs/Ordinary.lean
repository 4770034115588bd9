import Verif.Proofs.CloneLoops
import Verif.Proofs.JsonLoad
import Verif.Model.CopyF
import Verif.Spec.Ordinary
/-! Decoding and copying are sequences of calls of `NewNode` and `NewEdge`. -/
namespace LPG
open State

theorem adds_cases {op : Op} (h : op.adds = true) : (∃ ls ps, op = .newNode ls ps) ∨ ∃ a b lb ps, op = .newEdge a b lb ps := by
  cases op <;> simp [Op.adds] at h ⊢

/-- The nodes after calls that only create. -/
theorem Spec.adds_keep {op : Op} (h : op.adds = true) {σ : Spec} {n : Nat} (hn : n ∈ σ.nodes) : n ∈ (σ.step op).nodes := by
  rcases adds_cases h with ⟨_, _, rfl⟩ | ⟨_, _, _, _, rfl⟩ <;> simp [Spec.step, hn]

namespace Json

/-- `l` has been reached from `s0` by calls that create nodes and edges, and the nodes it knows are live. -/
def Added (s0 : State) (σ0 : Spec) (l : Load) : Prop :=
  ∃ ops, (∀ op ∈ ops, Op.adds op = true) ∧ σ0.ValidFrom ops ∧ runFrom s0 ops = some l.s ∧ Core l.s (σ0.runFrom ops) ∧
    ∀ i a, l.nodeMap.get i = some a → a ∈ (σ0.runFrom ops).nodes

variable {s0 : State} {σ0 : Spec} {c : Codec}

theorem Added.edge {l : Load} (h : Added s0 σ0 l) {i j : Int} {a b : Nat} {label : String} {ps : AMap String JVal}
    {r : Option Err × Load} (ha : l.nodeMap.get i = some a) (hb : l.nodeMap.get j = some b)
    (hr : addEdge c l a b label ps = some r) : Added s0 σ0 r.2 := by
  unfold addEdge at hr
  split at hr
  · cases hr; exact h
  · rename_i p hp
    split at hr
    · cases hr
    · rename_i s hs
      cases hr
      obtain ⟨ops, h1, h2, h3, h4, h5⟩ := h
      have hv : (σ0.runFrom ops).Valid (.newEdge a b label p) := ⟨h5 _ _ ha, h5 _ _ hb, (propsRead hp).1⟩
      refine ⟨ops ++ [.newEdge a b label p], ?_, valid_snoc h2 hv, run_snoc h3 hs, ?_, ?_⟩
      · intro op ho
        rcases List.mem_append.1 ho with ho | ho
        · exact h1 op ho
        · simp at ho; subst ho; rfl
      · have := h4.step hv hs
        simpa [Spec.runFrom] using this
      · intro i x hi
        have := Spec.adds_keep (op := .newEdge a b label p) rfl (h5 i x hi)
        simpa [Spec.runFrom] using this

theorem Added.outgoing {n : Int} {a : Nat} : ∀ (es : List OutEdge) {l : Load} {r : Option Err × Load}, Added s0 σ0 l →
    l.nodeMap.get n = some a → addOutgoing c n a es l = some r → Added s0 σ0 r.2
  | [], l, r, h, _, hr => by cases hr; exact h
  | e :: es, l, r, h, ha, hr => by
    rw [addOutgoing] at hr
    split at hr
    · exact Added.outgoing es (show Added s0 σ0 { l with queue := l.queue ++ [_] } from h) ha hr
    · rename_i b hb
      split at hr
      · rename_i l1 h1
        have hm : l1.nodeMap = l.nodeMap := by
          unfold addEdge at h1
          split at h1
          · cases h1
          · split at h1
            · cases h1
            · cases h1; rfl
        exact Added.outgoing es (h.edge ha hb h1) (by rw [hm]; exact ha) hr
      · exact h.edge ha hb hr

theorem Added.node {l : Load} (h : Added s0 σ0 l) {node : DocNode} {r : Option Err × Load} (hr : addNode c l node = some r) :
    Added s0 σ0 r.2 := by
  unfold addNode at hr
  split at hr
  · cases hr; exact h
  · rename_i p hp
    split at hr
    · cases hr
    · rename_i s hs
      obtain ⟨ops, h1, h2, h3, h4, h5⟩ := h
      have hv : (σ0.runFrom ops).Valid (.newNode node.labels p) := (propsRead hp).1
      refine Added.outgoing node.edges ⟨ops ++ [.newNode node.labels p], ?_, valid_snoc h2 hv, run_snoc h3 hs, ?_, ?_⟩
        (by simp [AMap.get_set]) hr
      · intro op ho
        rcases List.mem_append.1 ho with ho | ho
        · exact h1 op ho
        · simp at ho; subst ho; rfl
      · have := h4.step hv hs
        simpa [Spec.runFrom] using this
      · intro i a hi
        simp only [AMap.get_set] at hi
        split at hi
        · cases hi
          simp [Spec.runFrom, Spec.step, h4.next]
        · have := Spec.adds_keep (op := .newNode node.labels p) rfl (h5 i a hi)
          simpa [Spec.runFrom] using this

theorem Added.nodes : ∀ (ns : List DocNode) {l : Load} {r : Option Err × Load}, Added s0 σ0 l →
    addNodes c ns l = some r → Added s0 σ0 r.2
  | [], l, r, h, hr => by cases hr; exact h
  | n :: ns, l, r, h, hr => by
    rw [addNodes] at hr
    split at hr
    · rename_i l1 h1; exact Added.nodes ns (h.node h1) hr
    · exact h.node hr

theorem Added.edges : ∀ (es : List FullEdge) {l : Load} {r : Option Err × Load}, Added s0 σ0 l →
    addEdges c es l = some r → Added s0 σ0 r.2
  | [], l, r, h, hr => by cases hr; exact h
  | e :: es, l, r, h, hr => by
    rw [addEdges] at hr
    split at hr
    · rename_i a b ha hb
      split at hr
      · rename_i l1 h1; exact Added.edges es (h.edge ha hb h1) hr
      · exact h.edge ha hb hr
    · exact Added.edges es (show Added s0 σ0 { l with queue := l.queue ++ [e] } from h) hr

theorem Added.queue : ∀ (es : List FullEdge) {l : Load} {r : Option Err × Load}, Added s0 σ0 l →
    addQueue c es l = some r → Added s0 σ0 r.2
  | [], l, r, h, hr => by cases hr; exact h
  | e :: es, l, r, h, hr => by
    rw [addQueue] at hr
    split at hr
    · cases hr; exact h
    · rename_i a ha
      split at hr
      · cases hr; exact h
      · rename_i b hb
        split at hr
        · rename_i l1 h1; exact Added.queue es (h.edge ha hb h1) hr
        · exact h.edge ha hb hr

theorem Added.loop : ∀ (f depth : Nat) (d : Decoder) {l : Load} {r : Option Err × Load}, Added s0 σ0 l →
    decodeLoop c f depth d l = some r → Added s0 σ0 r.2
  | 0, _, _, l, r, h, hr => by cases hr; exact h
  | f + 1, depth, d, l, r, h, hr => by
    rw [decodeLoop] at hr
    split at hr
    · cases hr; exact h
    · split at hr
      · split at hr
        · split at hr
          · split at hr
            · cases hr; exact h
            · split at hr
              · cases hr; exact h
              · split at hr
                · rename_i l1 h1; exact Added.loop f _ _ (h.nodes _ h1) hr
                · exact h.nodes _ hr
          · split at hr
            · split at hr
              · cases hr; exact h
              · split at hr
                · cases hr; exact h
                · split at hr
                  · rename_i l1 h1; exact Added.loop f _ _ (h.edges _ h1) hr
                  · exact h.edges _ hr
            · exact Added.loop f _ _ h hr
        · exact h.queue _ hr
        · exact Added.loop f _ _ h hr
      · split at hr <;> exact Added.loop f _ _ h hr

theorem decode_added (hc : Core s0 σ0) {ts : List Tok} {err : Option Err} {s' : State} (h : decode c s0 ts = some (err, s')) :
    ∃ ops, (∀ op ∈ ops, Op.adds op = true) ∧ σ0.ValidFrom ops ∧ runFrom s0 ops = some s' := by
  have start : Added s0 σ0 { s := s0 } := ⟨[], by simp, trivial, rfl, hc, by simp [AMap.get]⟩
  unfold decode at h
  split at h
  · cases h; exact ⟨[], by simp, trivial, rfl⟩
  · cases hl : decodeLoop c (ts.length + 1) 0 _ { s := s0 } with
    | none => rw [hl] at h; cases h
    | some r =>
      rw [hl] at h
      cases h
      obtain ⟨ops, h1, h2, h3, _⟩ := start.loop _ _ _ hl
      exact ⟨ops, h1, h2, h3⟩
  · cases h; exact ⟨[], by simp, trivial, rfl⟩

end Json

/-! ## Copies -/

/-- The sets and maps of all nodes and edges are sets and maps. -/
structure Neat (s : State) : Prop where
  labels : ∀ n, (s.nLabels n).Nodup
  nprops : ∀ n, (AMap.keys (s.nProps n)).Nodup
  eprops : ∀ e, (AMap.keys (s.eProps e)).Nodup

theorem Neat.step {s s' : State} {σ : Spec} {op : Op} (h : Neat s) (hx : s.idBase = σ.next) (hv : σ.Valid op)
    (hs : LPG.step s op = some s') : Neat s' := by
  let τ : Spec := { σ with labels := s.nLabels, nprop := fun n k => AMap.get (s.nProps n) k, src := s.eFrom, dst := s.eTo,
                           label := s.eLabel, eprop := fun e k => AMap.get (s.eProps e) k }
  have k : KeptOn (fun _ => True) (fun _ => True) s τ :=
    ⟨fun n _ => ⟨h.labels n, fun _ => Iff.rfl⟩, fun n _ => ⟨h.nprops n, fun _ => rfl⟩, fun _ _ => ⟨rfl, rfl, rfl⟩,
      fun e _ => ⟨h.eprops e, fun _ => rfl⟩⟩
  have k' := k.step (op := op) hx (by cases op <;> exact hv) hs
  exact ⟨fun n => (k'.labels n (Or.inl trivial)).1, fun n => (k'.nprops n (Or.inl trivial)).1,
    fun e => (k'.eprops e (Or.inl trivial)).1⟩

namespace World

theorem neat_step {W W' : World} {ω : WSpec} (r : Rep W ω) (h : Neat W.heap) {g : Nat} {op : Op} {b : Bool}
    (hv : (ω g).Valid op) (hs : W.step g op = some (W', b)) : Neat W'.heap := by
  obtain ⟨_, _, hs', _⟩ := r.step hv hs
  have h1 : Neat (W.view g) := ⟨h.labels, h.nprops, h.eprops⟩
  have h2 := h1.step (r.core g).next hv hs'
  exact ⟨h2.labels, h2.nprops, h2.eprops⟩

theorem neat_runFrom : ∀ {ops : List (Nat × Op)} {W W' : World} {ω : WSpec}, Rep W ω → Neat W.heap → ω.ValidFrom ops →
    World.runFrom W ops = some W' → Neat W'.heap
  | [], W, W', ω, r, hn, _, h => by cases h; exact hn
  | (g, op) :: ops, W, W', ω, r, hn, hv, h => by
    rw [World.runFrom] at h
    split at h
    · cases h
    · rename_i W1 b h1
      exact neat_runFrom (ops := ops) (ω := ω.step g op) (r.step hv.1 h1).2.1 (neat_step r hn hv.1 h1) hv.2 h

theorem Neat_new : Neat World.new.heap := by
  constructor <;> intro n <;> simp [World.new, State.new, AMap.keys]

/-- `W` has been reached from `W0` by calls on graph `t` that create nodes and edges. -/
def AddedOn (t : Nat) (W0 : World) (ω0 : WSpec) (W : World) (ω : WSpec) : Prop :=
  Rep W ω ∧ Neat W.heap ∧ ∃ ops : List Op, (∀ op ∈ ops, op.adds = true) ∧ ω0.ValidFrom (ops.map (fun op => (t, op))) ∧
    World.runFrom W0 (ops.map (fun op => (t, op))) = some W ∧ ω = ω0.runFrom (ops.map (fun op => (t, op)))

variable {t : Nat} {W0 : World} {ω0 : WSpec} {W : World} {ω : WSpec}

theorem AddedOn.start (r : Rep W0 ω0) (h : Neat W0.heap) : AddedOn t W0 ω0 W0 ω0 :=
  ⟨r, h, [], by simp, trivial, rfl, rfl⟩

theorem wvalid_snoc {g : Nat} {op : Op} : ∀ {ops : List (Nat × Op)} {ω : WSpec}, ω.ValidFrom ops → ((ω.runFrom ops) g).Valid op →
    ω.ValidFrom (ops ++ [(g, op)])
  | [], _, _, h => ⟨h, trivial⟩
  | (_, _) :: ops, _, h1, h2 => ⟨h1.1, wvalid_snoc (ops := ops) h1.2 h2⟩

theorem wrun_snoc {g : Nat} {op : Op} {b : Bool} {W2 : World} : ∀ {ops : List (Nat × Op)} {W W1 : World}, runFrom W ops = some W1 →
    W1.step g op = some (W2, b) → runFrom W (ops ++ [(g, op)]) = some W2
  | [], W, W1, h1, h2 => by cases h1; simp [runFrom, h2]
  | (_, _) :: ops, W, W1, h1, h2 => by
    rw [runFrom] at h1
    simp only [List.cons_append, runFrom]
    split at h1
    · cases h1
    · exact wrun_snoc h1 h2

theorem wspec_snoc {g : Nat} {op : Op} : ∀ {ops : List (Nat × Op)} {ω : WSpec},
    ω.runFrom (ops ++ [(g, op)]) = (ω.runFrom ops).step g op
  | [], _ => rfl
  | (_, _) :: ops, _ => by simp only [List.cons_append, WSpec.runFrom]; exact wspec_snoc (ops := ops)

theorem AddedOn.step (h : AddedOn t W0 ω0 W ω) {op : Op} (ho : op.adds = true) (hv : (ω t).Valid op) {W' : World} {b : Bool}
    (hs : W.step t op = some (W', b)) : AddedOn t W0 ω0 W' (ω.step t op) := by
  obtain ⟨r, hn, ops, h1, h2, h3, rfl⟩ := h
  refine ⟨(r.step hv hs).2.1, neat_step r hn hv hs, ops ++ [op], ?_, ?_, ?_, ?_⟩
  · intro o hx
    rcases List.mem_append.1 hx with hx | hx
    · exact h1 o hx
    · simp at hx; subst hx; exact ho
  · rw [List.map_append]; exact wvalid_snoc h2 hv
  · rw [List.map_append]; exact wrun_snoc h3 hs
  · rw [List.map_append]; exact wspec_snoc.symm

/-- The map of a copy leads to live nodes of the target. -/
def MapsTo (ω : WSpec) (t : Nat) (m : AMap Nat Nat) : Prop := ∀ p ∈ m, p.2 ∈ (ω t).nodes

theorem MapsTo.set {m : AMap Nat Nat} (h : MapsTo ω t m) {n n' : Nat} (hn : n' ∈ (ω t).nodes) : MapsTo ω t (m.set n n') := by
  intro p hp
  induction m with
  | nil => simp [AMap.set] at hp; subst hp; exact hn
  | cons q m ih =>
    obtain ⟨a, b⟩ := q
    rw [AMap.set] at hp
    split at hp
    · rcases List.mem_cons.1 hp with rfl | hp
      · exact hn
      · exact h p (by simp [hp])
    · rcases List.mem_cons.1 hp with rfl | hp
      · exact h _ (by simp)
      · exact ih (fun p hp => h p (by simp [hp])) hp

theorem MapsTo.step {m : AMap Nat Nat} (h : MapsTo ω t m) {op : Op} (ho : op.adds = true) : MapsTo (ω.step t op) t m := by
  intro p hp
  simp only [WSpec.step, if_true]
  exact Spec.adds_keep ho (h p hp)

theorem MapsTo.get {m : AMap Nat Nat} (h : MapsTo ω t m) {n n' : Nat} (hn : AMap.get m n = some n') : n' ∈ (ω t).nodes :=
  h _ (AMap.mem_of_get hn)

/-- Any state of the graph keeps its own sets. -/
theorem keptSelf {s : State} (h : Neat s) : ∃ τ, KeptOn (fun _ => True) (fun _ => True) s τ :=
  ⟨{ Spec.new with labels := s.nLabels, nprop := fun n k => AMap.get (s.nProps n) k, src := s.eFrom, dst := s.eTo,
                   label := s.eLabel, eprop := fun e k => AMap.get (s.eProps e) k },
    fun n _ => ⟨h.labels n, fun _ => Iff.rfl⟩, fun n _ => ⟨h.nprops n, fun _ => rfl⟩, fun _ _ => ⟨rfl, rfl, rfl⟩,
      fun e _ => ⟨h.eprops e, fun _ => rfl⟩⟩

variable {f : String → Value → Value}

theorem AddedOn.cloneNode (h : AddedOn t W0 ω0 W ω) {n n' : Nat} {W' : World} (hc : W.cloneNode t n f = some (W', n')) :
    ∃ ω', AddedOn t W0 ω0 W' ω' ∧ n' ∈ (ω' t).nodes ∧ ∀ m, MapsTo ω t m → MapsTo ω' t m := by
  obtain ⟨τ, k⟩ := keptSelf h.2.1
  obtain ⟨hv, _, _, hs⟩ := cloneNode_step h.1 k (t := t) (f := f) (n := n) trivial
  obtain ⟨hs, rfl⟩ := hs _ _ hc
  refine ⟨_, h.step rfl hv hs, ?_, fun m hm => hm.step rfl⟩
  simp [WSpec.step, Spec.step]

theorem AddedOn.copyEdge (h : AddedOn t W0 ω0 W ω) {e e' : Nat} {W' : World} {m : AMap Nat Nat} (hm : MapsTo ω t m)
    (hc : W.copyEdge e t f m = some (W', e')) : ∃ ω', AddedOn t W0 ω0 W' ω' ∧ ∀ m, MapsTo ω t m → MapsTo ω' t m := by
  obtain ⟨τ, k⟩ := keptSelf h.2.1
  unfold World.copyEdge at hc
  cases ha : m.get (W.heap.eFrom e) with
  | none => rw [ha] at hc; cases hc
  | some a =>
    cases hb : m.get (W.heap.eTo e) with
    | none => rw [ha, hb] at hc; cases hc
    | some b =>
      rw [ha, hb] at hc
      obtain ⟨hv, _, _, hs⟩ := cloneEdge_step h.1 k (t := t) (f := f) (e := e) trivial (hm.get ha) (hm.get hb)
      obtain ⟨hs, _⟩ := hs _ _ hc
      exact ⟨_, h.step rfl hv hs, fun m hm => hm.step rfl⟩

theorem AddedOn.copyEdges {m : AMap Nat Nat} : ∀ (es : List Nat) {W W' : World} {ω : WSpec}, AddedOn t W0 ω0 W ω → MapsTo ω t m →
    copyEdges t f m W es = some W' → ∃ ω', AddedOn t W0 ω0 W' ω' ∧ MapsTo ω' t m
  | [], W, W', ω, h, hm, hc => by cases hc; exact ⟨ω, h, hm⟩
  | e :: es, W, W', ω, h, hm, hc => by
    rw [World.copyEdges] at hc
    split at hc
    · exact AddedOn.copyEdges es h hm hc
    · split at hc
      · exact AddedOn.copyEdges es h hm hc
      · split at hc
        · cases hc
        · rename_i r hr
          obtain ⟨W1, e'⟩ := r
          obtain ⟨ω1, h1, k1⟩ := h.copyEdge hm hr
          exact AddedOn.copyEdges es h1 (k1 m hm) hc

theorem AddedOn.copyNodes (W : World) (nxt : Option Nat) (m : AMap Nat Nat) (r : World × AMap Nat Nat)
    (hc : copyNodes t f W nxt m = some r) : ∀ ω, AddedOn t W0 ω0 W ω → MapsTo ω t m → ∃ ω', AddedOn t W0 ω0 r.1 ω' ∧ MapsTo ω' t r.2 := by
  refine copyNodes.partial_correctness t f
    (motive := fun W nxt m r => ∀ ω, AddedOn t W0 ω0 W ω → MapsTo ω t m → ∃ ω', AddedOn t W0 ω0 r.1 ω' ∧ MapsTo ω' t r.2)
    ?_ W nxt m r hc
  intro rec ih W nxt m r hr ω h hm
  cases nxt with
  | none => cases hr; exact ⟨ω, h, hm⟩
  | some n =>
    simp only [Option.bind_eq_bind] at hr
    cases hcn : W.cloneNode t n f with
    | none => rw [hcn] at hr; cases hr
    | some q =>
      obtain ⟨W1, n'⟩ := q
      rw [hcn] at hr
      obtain ⟨ω1, h1, h2, k1⟩ := h.cloneNode hcn
      exact ih _ _ _ _ hr ω1 h1 ((k1 m hm).set h2)

theorem AddedOn.copyGraph (h : AddedOn t W0 ω0 W ω) {s : Nat} {r : World × AMap Nat Nat} (hc : W.copyGraph s t f = some r) :
    ∃ ω', AddedOn t W0 ω0 r.1 ω' ∧ MapsTo ω' t r.2 := by
  unfold World.copyGraph at hc
  simp only [Option.bind_eq_bind] at hc
  obtain ⟨⟨W1, m⟩, h1, hc⟩ := Option.bind_eq_some_iff.1 hc
  obtain ⟨es, h2, hc⟩ := Option.bind_eq_some_iff.1 hc
  obtain ⟨W2, h3, hc⟩ := Option.bind_eq_some_iff.1 hc
  cases hc
  obtain ⟨ω1, a1, b1⟩ := AddedOn.copyNodes W _ [] _ h1 ω h (by intro p hp; cases hp)
  obtain ⟨ω2, a2, b2⟩ := AddedOn.copyEdges es a1 b1 h3
  exact ⟨ω2, a2, b2⟩

theorem AddedOn.copySubgraph (st : World × AMap Nat Nat) (n : Nat) (r : World × AMap Nat Nat)
    (hc : World.copySubgraph t f st n = some r) : ∀ ω, AddedOn t W0 ω0 st.1 ω → MapsTo ω t st.2 →
      ∃ ω', AddedOn t W0 ω0 r.1 ω' ∧ MapsTo ω' t r.2 := by
  refine World.copySubgraph.partial_correctness t f
    (motive := fun st _ r => ∀ ω, AddedOn t W0 ω0 st.1 ω → MapsTo ω t st.2 → ∃ ω', AddedOn t W0 ω0 r.1 ω' ∧ MapsTo ω' t r.2)
    ?_ st n r hc
  intro rec ih st n r hr ω h hm
  split at hr
  · cases hr; exact ⟨ω, h, hm⟩
  · simp only [Option.bind_eq_bind] at hr
    obtain ⟨⟨W1, n'⟩, h1, hr⟩ := Option.bind_eq_some_iff.1 hr
    obtain ⟨es, h2, hr⟩ := Option.bind_eq_some_iff.1 hr
    obtain ⟨ω1, a1, b1, k1⟩ := h.cloneNode h1
    have key : ∀ (es : List Nat) (st r : World × AMap Nat Nat) (ω : WSpec), AddedOn t W0 ω0 st.1 ω → MapsTo ω t st.2 →
        es.foldlM (fun st e => (rec st (st.1.heap.eTo e)).bind
          (fun st => (st.1.copyEdge e t f st.2).bind (fun r => pure (r.1, st.2)))) st = some r →
        ∃ ω', AddedOn t W0 ω0 r.1 ω' ∧ MapsTo ω' t r.2 := by
      intro es
      induction es with
      | nil => intro st r ω h hm hr; cases hr; exact ⟨ω, h, hm⟩
      | cons e es ihs =>
        intro st r ω h hm hr
        rw [List.foldlM_cons] at hr
        obtain ⟨st1, g1, hr⟩ := Option.bind_eq_some_iff.1 hr
        obtain ⟨st2, g2, g1⟩ := Option.bind_eq_some_iff.1 g1
        obtain ⟨⟨W3, e'⟩, g3, g1⟩ := Option.bind_eq_some_iff.1 g1
        cases g1
        obtain ⟨ω2, a2, b2⟩ := ih _ _ _ g2 ω h hm
        obtain ⟨ω3, a3, k3⟩ := a2.copyEdge b2 g3
        exact ihs (W3, st2.2) r ω3 a3 (k3 _ b2) hr
    exact key es _ r ω1 a1 ((k1 _ hm).set b1) hr

/-! ## CopyGraphf -/

open CopyF in
theorem AddedOn.copyGraphf {s : Nat} {c : Funcs World}
    (hnode : ∀ n m W W' o ω, AddedOn t W0 ω0 W ω → MapsTo ω t m → c.node n m W = some (W', o) →
      ∃ ω', AddedOn t W0 ω0 W' ω' ∧ MapsTo ω' t m ∧ ∀ n', o = some n' → n' ∈ (ω' t).nodes)
    (hedge : ∀ e m W W' ω, AddedOn t W0 ω0 W ω → MapsTo ω t m → c.edge e m W = some W' →
      ∃ ω', AddedOn t W0 ω0 W' ω' ∧ MapsTo ω' t m)
    (h : AddedOn t W0 ω0 W ω) {r : World × AMap Nat Nat} (hc : copyGraphf (fun W => W.view s) c W = some r) :
    ∃ ω', AddedOn t W0 ω0 r.1 ω' ∧ MapsTo ω' t r.2 := by
  have hnodes : ∀ (W : World) (nxt : Option Nat) (m : AMap Nat Nat) (r : World × AMap Nat Nat),
      nodes (fun W => W.view s) c W nxt m = some r → ∀ ω, AddedOn t W0 ω0 W ω → MapsTo ω t m →
        ∃ ω', AddedOn t W0 ω0 r.1 ω' ∧ MapsTo ω' t r.2 := by
    refine nodes.partial_correctness (fun W => W.view s) c
      (motive := fun W _ m r => ∀ ω, AddedOn t W0 ω0 W ω → MapsTo ω t m → ∃ ω', AddedOn t W0 ω0 r.1 ω' ∧ MapsTo ω' t r.2) ?_
    intro rec ih W nxt m r hr ω h hm
    cases nxt with
    | none => cases hr; exact ⟨ω, h, hm⟩
    | some n =>
      simp only [Option.bind_eq_bind] at hr
      obtain ⟨⟨W1, o⟩, h1, hr⟩ := Option.bind_eq_some_iff.1 hr
      obtain ⟨ω1, a1, b1, k1⟩ := hnode _ _ _ _ _ ω h hm h1
      refine ih _ _ _ _ hr ω1 a1 ?_
      cases o with
      | none => exact b1
      | some n' => exact b1.set (k1 n' rfl)
  have hedges : ∀ (m : AMap Nat Nat) (es : List Nat) (W W' : World) (ω : WSpec), AddedOn t W0 ω0 W ω → MapsTo ω t m →
      edges (fun W => W.view s) c m W es = some W' → ∃ ω', AddedOn t W0 ω0 W' ω' ∧ MapsTo ω' t m := by
    intro m es
    induction es with
    | nil => intro W W' ω h hm hr; cases hr; exact ⟨ω, h, hm⟩
    | cons e es ih =>
      intro W W' ω h hm hr
      rw [edges] at hr
      split at hr
      · exact ih _ _ _ h hm hr
      · split at hr
        · exact ih _ _ _ h hm hr
        · split at hr
          · cases hr
          · rename_i W1 h1
            obtain ⟨ω1, a1, b1⟩ := hedge _ _ _ _ ω h hm h1
            exact ih _ _ _ a1 b1 hr
  unfold CopyF.copyGraphf at hc
  simp only [Option.bind_eq_bind] at hc
  obtain ⟨⟨W1, m⟩, h1, hc⟩ := Option.bind_eq_some_iff.1 hc
  obtain ⟨es, h2, hc⟩ := Option.bind_eq_some_iff.1 hc
  obtain ⟨W2, h3, hc⟩ := Option.bind_eq_some_iff.1 hc
  cases hc
  obtain ⟨ω1, a1, b1⟩ := hnodes W _ [] _ h1 ω h (by intro p hp; cases hp)
  exact hedges _ es _ _ ω1 a1 b1 h3

theorem AddedOn.ofClone {s : Nat} {keep keepEdge : Nat → Bool} (h : AddedOn t W0 ω0 W ω) {r : World × AMap Nat Nat}
    (hc : CopyF.copyGraphf (fun W => W.view s) (CopyF.cloneFuncs t f keep keepEdge) W = some r) :
    ∃ ω', AddedOn t W0 ω0 r.1 ω' ∧ MapsTo ω' t r.2 := by
  refine AddedOn.copyGraphf (fun n m W W' o ω h hm hn => ?_) (fun e m W W' ω h hm he => ?_) h hc
  · simp only [CopyF.cloneFuncs] at hn
    split at hn
    · cases hq : W.cloneNode t n f with
      | none => rw [hq] at hn; cases hn
      | some q =>
        rw [hq] at hn
        cases hn
        obtain ⟨ω1, a1, b1, k1⟩ := h.cloneNode hq
        exact ⟨ω1, a1, k1 m hm, fun n' hn' => by cases hn'; exact b1⟩
    · cases hn; exact ⟨ω, h, hm, fun n' hn' => by cases hn'⟩
  · simp only [CopyF.cloneFuncs] at he
    split at he
    · cases hq : W.copyEdge e t f m with
      | none => rw [hq] at he; cases he
      | some q =>
        rw [hq] at he
        cases he
        obtain ⟨ω1, a1, k1⟩ := h.copyEdge hm hq
        exact ⟨ω1, a1, k1 m hm⟩
    · cases he; exact ⟨ω, h, hm⟩

/-! ## Calls on one graph of a world -/

/-- What calls that create do to a graph of a program, they do to the program. -/
theorem runs_view : ∀ {ops : List Op} {W : World} {ω : WSpec} {s' : State}, Rep W ω → (ω t).ValidFrom ops →
    LPG.runFrom (W.view t) ops = some s' → ∃ W', World.runFrom W (ops.map (fun op => (t, op))) = some W' ∧ W'.view t = s' ∧
      ω.ValidFrom (ops.map (fun op => (t, op)))
  | [], W, ω, s', _, _, h => by cases h; exact ⟨W, rfl, rfl, trivial⟩
  | op :: ops, W, ω, s', r, hv, h => by
    rw [LPG.runFrom] at h
    split at h
    · cases h
    · rename_i s1 h1
      have ht := r.target hv.1
      have hs : W.step t op = some ((W.alloc t op).store t s1, false) := by
        unfold World.step
        rw [ht.1]; simp only [ht.2, h1]; rfl
      have hview : ((W.alloc t op).store t s1).view t = s1 := by
        simp [World.store, World.view]
      have r1 := (r.step hv.1 hs).2.1
      have e1 : (ω.step t op) t = (ω t).step op := by simp [WSpec.step]
      obtain ⟨W', g1, g2, g3⟩ := runs_view (ops := ops) (s' := s') r1 (by rw [e1]; exact hv.2) (by rw [hview]; exact h)
      refine ⟨W', ?_, g2, hv.1, g3⟩
      simp only [List.map_cons, World.runFrom, hs]
      exact g1

end World
end LPG
