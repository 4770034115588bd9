import Verif.Model.RecoverDecode
import Verif.Spec.RecoverDecode
import Verif.Proofs.Ordinary
import Verif.Props.C74
/-!
# What `Decode` does, whether it panics or not
-/
namespace LPG
open State

theorem Calls.survived {s s' : State} {hist hist' : List (Option Op)} {cs : List (Op × Bool)} (h : Calls s hist cs s' hist') :
    Survived s' hist' := by
  cases h with
  | start h => exact h
  | call _ _ _ _ h => exact h

theorem Calls.adds {s s1 s2 : State} {hist hist1 : List (Option Op)} {cs : List (Op × Bool)} (h : Calls s hist cs s1 hist1) {op : Op}
    {b : Bool} {o : MapOrder} (hv : (Spec.runLost hist1).Valid op) (hs : recoverStep o s1 op = some (s2, b)) :
    ∃ eff, (Spec.runLost hist1).AmountsLost op b eff ∧ Calls s hist (cs ++ [(op, b)]) s2 (hist1 ++ eff) := by
  obtain ⟨eff, h1, -, h3⟩ := C74 h.survived hv hs
  exact ⟨eff, h1, .call h hv hs h1 h3⟩

theorem Spec.AmountsLost.adds {σ : Spec} {op : Op} {b : Bool} {eff : List (Option Op)} (h : σ.AmountsLost op b eff) (ha : op.adds = true) :
    eff = [some op] ∨ b = true ∧ eff = [none] := by
  cases h with
  | lost x y l ps => exact .inr ⟨rfl, rfl⟩
  | made h => cases h <;> first | exact .inl rfl | cases ha

/-- For calls that create something, whatever the graph. -/
theorem step_adds {o : MapOrder} {s : State} {op : Op} (ha : op.adds = true) :
    step s op = match recoverStep o s op with
      | some (s', false) => some s'
      | _ => none := by
  have h1 : ∀ s', step s op = some s' ↔ tryStep o s op = some (s', false) := by
    intro s'
    rcases adds_cases ha with ⟨ls, ps, rfl⟩ | ⟨a, b, l, ps, rfl⟩
    · simp only [step, tryStep, State.newNode, State.tryNewNode]
      rcases opt_of_try (fun a => Indexes.tryAddAll_ok (id := s.idBase) (ps := ps) (ixs := s.nodeIx) (ixs' := a)) with
        ⟨h1, h2⟩ | ⟨a, h1, h2⟩
      · rw [h1]; simp [h2]
      · rw [h1, h2]; simp
    · simp only [step, tryStep, State.newEdge, State.tryNewEdge]
      generalize EdgeMap.add (upd s.slot0 s.idBase ⟨none, none⟩) (upd s.eLabel s.idBase l) s.allEdges s.idBase = w
      cases w with
      | none => simp
      | some pm =>
        obtain ⟨p0, m⟩ := pm
        simp only
        generalize State.connect _ s.idBase = o2
        cases o2 with
        | none => simp
        | some s2 =>
          simp only
          rcases opt_of_try (fun a => Indexes.tryAddAll_ok (id := s.idBase) (ps := ps) (ixs := s2.edgeIx) (ixs' := a)) with
            ⟨h1, h2⟩ | ⟨a, h1, h2⟩
          · rw [h1]; simp [h2]
          · rw [h1, h2]; simp
  cases hr : recoverStep o s op with
  | none =>
    dsimp only
    cases hs : step s op with
    | none => rfl
    | some s' => unfold recoverStep at hr; rw [(h1 s').1 hs] at hr; cases hr
  | some r =>
    obtain ⟨s', b⟩ := r
    cases b with
    | false =>
      dsimp only
      rcases tryStep_of_recover hr with ht | ⟨_, _, hb, _⟩
      · exact (h1 s').2 ht
      · cases hb
    | true =>
      dsimp only
      cases hs : step s op with
      | none => rfl
      | some s1 => unfold recoverStep at hr; rw [(h1 s1).1 hs] at hr; cases hr

namespace Json

/-- What the model without `recover` says. -/
def collapse : TryOutcome → Outcome
  | some (none, l) => some (none, l)
  | some (some (.error e), l) => some (some e, l)
  | _ => none

variable {o : MapOrder} {c : Codec}

theorem tryCall_same {l : Load} {op : Op} (ha : op.adds = true) :
    (match step l.s op with
      | none => none
      | some s => some (none, { l with s := s }) : Outcome) = collapse (tryCall o l op) := by
  rw [step_adds (o := o) ha, tryCall]
  cases recoverStep o l.s op with
  | none => rfl
  | some r => obtain ⟨s, b⟩ := r; cases b <;> rfl

theorem addEdge_same (l : Load) (a b : Nat) (label : String) (ps : AMap String JVal) :
    addEdge c l a b label ps = collapse (tryAddEdge o c l a b label ps) := by
  unfold addEdge tryAddEdge
  cases unmarshalProperties c ps [] with
  | none => rfl
  | some p => exact tryCall_same (op := .newEdge a b label p) rfl

theorem same_bind {x : Outcome} {y : TryOutcome} {F : Load → Outcome} {G : Load → TryOutcome} (h : x = collapse y)
    (hF : ∀ l, F l = collapse (G l)) :
    (match (generalizing := false) x with
      | some (none, l) => F l
      | r => r) = collapse (match (generalizing := false) y with
      | some (none, l) => G l
      | r => r) := by
  subst h
  match y with
  | none => rfl
  | some (none, l) => exact hF l
  | some (some (.error e), l) => rfl
  | some (some .panic, l) => rfl

theorem addOutgoing_same (n : Int) (a : Nat) : ∀ (es : List OutEdge) (l : Load),
    addOutgoing c n a es l = collapse (tryAddOutgoing o c n a es l)
  | [], l => rfl
  | e :: es, l => by
    rw [addOutgoing, tryAddOutgoing]
    cases l.nodeMap.get e.to with
    | none => exact addOutgoing_same n a es _
    | some b => exact same_bind (addEdge_same _ _ _ _ _) (addOutgoing_same n a es)

theorem addNode_same (l : Load) (node : DocNode) : addNode c l node = collapse (tryAddNode o c l node) := by
  unfold addNode tryAddNode
  cases unmarshalProperties c node.properties [] with
  | none => rfl
  | some p =>
    dsimp only
    have h := step_adds (o := o) (s := l.s) (op := .newNode node.labels p) rfl
    rw [h, tryCall]
    cases recoverStep o l.s (.newNode node.labels p) with
    | none => rfl
    | some r =>
      obtain ⟨s, b⟩ := r
      cases b with
      | false => exact addOutgoing_same _ _ _ _
      | true => rfl

theorem addNodes_same : ∀ (ns : List DocNode) (l : Load), addNodes c ns l = collapse (tryAddNodes o c ns l)
  | [], l => rfl
  | n :: ns, l => by
    rw [addNodes, tryAddNodes]
    exact same_bind (addNode_same _ _) (addNodes_same ns)

theorem addEdges_same : ∀ (es : List FullEdge) (l : Load), addEdges c es l = collapse (tryAddEdges o c es l)
  | [], l => rfl
  | e :: es, l => by
    rw [addEdges, tryAddEdges]
    cases l.nodeMap.get e.from with
    | none => exact addEdges_same es _
    | some a =>
      cases l.nodeMap.get e.to with
      | none => exact addEdges_same es _
      | some b => exact same_bind (addEdge_same _ _ _ _ _) (addEdges_same es)

theorem addQueue_same : ∀ (es : List FullEdge) (l : Load), addQueue c es l = collapse (tryAddQueue o c es l)
  | [], l => rfl
  | e :: es, l => by
    rw [addQueue, tryAddQueue]
    cases l.nodeMap.get e.from with
    | none => rfl
    | some a =>
      cases l.nodeMap.get e.to with
      | none => rfl
      | some b => exact same_bind (addEdge_same _ _ _ _ _) (addQueue_same es)

theorem decodeLoop_same : ∀ (f depth : Nat) (d : Decoder) (l : Load),
    decodeLoop c f depth d l = collapse (tryDecodeLoop o c f depth d l)
  | 0, _, _, l => rfl
  | f + 1, depth, d, l => by
    rw [decodeLoop, tryDecodeLoop]
    cases d.token with
    | none => rfl
    | some td =>
      obtain ⟨tok, d⟩ := td
      dsimp only
      by_cases hd : depth = 0
      · rw [if_pos hd, if_pos hd]
        cases tok with
        | str k =>
          dsimp only
          by_cases hk : k = "nodes"
          · rw [if_pos hk, if_pos hk]
            cases d.value with
            | none => rfl
            | some vd =>
              dsimp only
              cases toSlice toNode vd.1 with
              | none => rfl
              | some ns => exact same_bind (addNodes_same _ _) (decodeLoop_same f _ _)
          · rw [if_neg hk, if_neg hk]
            by_cases hk : k = "edges"
            · rw [if_pos hk, if_pos hk]
              cases d.value with
              | none => rfl
              | some vd =>
                dsimp only
                cases toSlice toFullEdge vd.1 with
                | none => rfl
                | some es => exact same_bind (addEdges_same _ _) (decodeLoop_same f _ _)
            · rw [if_neg hk, if_neg hk]; exact decodeLoop_same f _ _ _
        | rbrace => exact addQueue_same _ _
        | _ => exact decodeLoop_same f _ _ _
      · rw [if_neg hd, if_neg hd]
        cases tok <;> exact decodeLoop_same f _ _ _

theorem tryDecode_same (o : MapOrder) (c : Codec) (s : State) (ts : List Tok) :
    decode c s ts = match tryDecode o c s ts with
      | some (none, s) => some (none, s)
      | some (some (.error e), s) => some (some e, s)
      | _ => none := by
  unfold decode tryDecode
  match ({ toks := ts } : Decoder).token with
  | none => rfl
  | some (tok, d) =>
    cases tok with
    | lbrace =>
      dsimp only
      rw [decodeLoop_same (o := o)]
      match tryDecodeLoop o c (ts.length + 1) 0 d { s := s } with
      | none => rfl
      | some (none, l) => rfl
      | some (some (.error e), l) => rfl
      | some (some .panic, l) => rfl
    | _ => rfl

/-! ## The calls -/

variable {s0 : State} {h0 : List (Option Op)}

/-- `l` has been reached by calls that created nodes and edges and returned; the nodes it knows are live. -/
def Made (s0 : State) (h0 : List (Option Op)) (l : Load) : Prop :=
  ∃ cs hist, Calls s0 h0 cs l.s hist ∧ (∀ x ∈ cs, x.1.adds = true ∧ x.2 = false) ∧
    ∀ i a, l.nodeMap.get i = some a → a ∈ (Spec.runLost hist).nodes

/-- Calls that created nodes and edges, the last of which panicked. -/
def Broke (s0 : State) (h0 : List (Option Op)) (s : State) : Prop :=
  ∃ cs op hist, Calls s0 h0 (cs ++ [(op, true)]) s hist ∧ op.adds = true ∧ ∀ x ∈ cs, x.1.adds = true ∧ x.2 = false

/-- A part of `Decode` returns or panics. -/
def Fine (s0 : State) (h0 : List (Option Op)) (Q : Load → Prop) (r : TryOutcome) : Prop :=
  ∃ st l, r = some (st, l) ∧ match st with
    | some .panic => Broke s0 h0 l.s
    | some (.error _) => Made s0 h0 l
    | none => Made s0 h0 l ∧ Q l

theorem Fine.bind {Q Q' : Load → Prop} {x : TryOutcome} {F : Load → TryOutcome} (hx : Fine s0 h0 Q x)
    (hF : ∀ l, Made s0 h0 l → Q l → Fine s0 h0 Q' (F l)) :
    Fine s0 h0 Q' (match (generalizing := false) x with
      | some (none, l) => F l
      | r => r) := by
  obtain ⟨st, l, rfl, h⟩ := hx
  match st, h with
  | none, h => exact hF l h.1 h.2
  | some .panic, h => exact ⟨_, l, rfl, h⟩
  | some (.error e), h => exact ⟨_, l, rfl, h⟩

theorem Made.call {l : Load} (h : Made s0 h0 l) {op : Op} (ha : op.adds = true)
    (hv : ∀ hist, (∀ i a, l.nodeMap.get i = some a → a ∈ (Spec.runLost hist).nodes) → (Spec.runLost hist).Valid op) :
    Fine s0 h0 (fun l' => l'.nodeMap = l.nodeMap ∧ ∀ ls ps, op = .newNode ls ps → ∃ cs hist, Calls s0 h0 cs l'.s hist ∧
      (∀ x ∈ cs, x.1.adds = true ∧ x.2 = false) ∧ (∀ i a, l.nodeMap.get i = some a → a ∈ (Spec.runLost hist).nodes) ∧
      l.s.idBase ∈ (Spec.runLost hist).nodes) (tryCall o l op) := by
  obtain ⟨cs, hist, h1, h2, h3⟩ := h
  have hv1 := hv hist h3
  obtain ⟨s', b, hs⟩ := C74_returns h1.survived hv1 o
  obtain ⟨eff, h4, h5⟩ := h1.adds hv1 hs
  refine ⟨_, _, by rw [tryCall, hs], ?_⟩
  cases b with
  | true => exact ⟨cs, op, _, h5, ha, h2⟩
  | false =>
    rcases h4.adds ha with rfl | ⟨hb, -⟩
    · have e : Spec.runLost (hist ++ [some op]) = (Spec.runLost hist).step op := by simp [Spec.runLost, Spec.stepLost]
      have h6 : ∀ x ∈ cs ++ [(op, false)], x.1.adds = true ∧ x.2 = false := by
        intro x hx
        rcases List.mem_append.1 hx with hx | hx
        · exact h2 x hx
        · simp at hx; subst hx; exact ⟨ha, rfl⟩
      have h7 : ∀ i a, l.nodeMap.get i = some a → a ∈ (Spec.runLost (hist ++ [some op])).nodes := by
        intro i a hi
        rw [e]
        exact Spec.adds_keep ha (h3 i a hi)
      refine ⟨⟨_, _, h5, h6, h7⟩, rfl, ?_⟩
      rintro ls ps rfl
      refine ⟨_, _, h5, h6, h7, ?_⟩
      have hn : l.s.idBase = (Spec.runLost hist).next := h1.survived.sound.core.next
      rw [e, hn]
      simp [Spec.step]
    · cases hb

theorem Made.edge {l : Load} (h : Made s0 h0 l) {i j : Int} {a b : Nat} {label : String} {ps : AMap String JVal}
    (ha : l.nodeMap.get i = some a) (hb : l.nodeMap.get j = some b) :
    Fine s0 h0 (fun l' => l'.nodeMap = l.nodeMap) (tryAddEdge o c l a b label ps) := by
  unfold tryAddEdge
  split
  · exact ⟨_, l, rfl, h⟩
  · rename_i p hp
    obtain ⟨st, l', h1, h2⟩ := h.call (o := o) (op := .newEdge a b label p) rfl (fun hist h5 => ⟨h5 _ _ ha, h5 _ _ hb, (propsRead hp).1⟩)
    refine ⟨st, l', h1, ?_⟩
    match st, h2 with
    | none, h2 => exact ⟨h2.1, h2.2.1⟩
    | some .panic, h2 => exact h2
    | some (.error e), h2 => exact h2

theorem Made.queued {l : Load} (h : Made s0 h0 l) (q : List FullEdge) : Made s0 h0 { l with queue := q } := h

theorem Made.outgoing {n : Int} {a : Nat} : ∀ (es : List OutEdge) {l : Load}, Made s0 h0 l → l.nodeMap.get n = some a →
    Fine s0 h0 (fun _ => True) (tryAddOutgoing o c n a es l)
  | [], l, h, _ => ⟨none, l, rfl, h, trivial⟩
  | e :: es, l, h, ha => by
    rw [tryAddOutgoing]
    split
    · exact Made.outgoing es (h.queued _) ha
    · rename_i b hb
      exact (h.edge ha hb).bind (fun l' h' hq => Made.outgoing es h' (by rw [hq]; exact ha))

theorem Made.node {l : Load} (h : Made s0 h0 l) (node : DocNode) : Fine s0 h0 (fun _ => True) (tryAddNode o c l node) := by
  unfold tryAddNode
  split
  · exact ⟨_, l, rfl, h⟩
  · rename_i p hp
    refine (h.call (o := o) (op := .newNode node.labels p) rfl (fun hist _ => (propsRead hp).1)).bind ?_
    rintro l' - ⟨-, hq⟩
    obtain ⟨cs, hist, g1, g2, g3, g4⟩ := hq _ _ rfl
    refine Made.outgoing node.edges ⟨cs, hist, g1, g2, ?_⟩ (by simp [AMap.get_set])
    intro i a hi
    simp only [AMap.get_set] at hi
    split at hi
    · cases hi; exact g4
    · exact g3 i a hi

theorem Made.nodes : ∀ (ns : List DocNode) {l : Load}, Made s0 h0 l → Fine s0 h0 (fun _ => True) (tryAddNodes o c ns l)
  | [], l, h => ⟨none, l, rfl, h, trivial⟩
  | n :: ns, l, h => by
    rw [tryAddNodes]
    exact (h.node n).bind (fun l' h' _ => Made.nodes ns h')

theorem Made.edges : ∀ (es : List FullEdge) {l : Load}, Made s0 h0 l → Fine s0 h0 (fun _ => True) (tryAddEdges o c es l)
  | [], l, h => ⟨none, l, rfl, h, trivial⟩
  | e :: es, l, h => by
    rw [tryAddEdges]
    split
    · rename_i a b ha hb
      exact (h.edge ha hb).bind (fun l' h' _ => Made.edges es h')
    · exact Made.edges es (h.queued _)

theorem Made.queue : ∀ (es : List FullEdge) {l : Load}, Made s0 h0 l → Fine s0 h0 (fun _ => True) (tryAddQueue o c es l)
  | [], l, h => ⟨none, l, rfl, h, trivial⟩
  | e :: es, l, h => by
    rw [tryAddQueue]
    split
    · exact ⟨_, l, rfl, h⟩
    · rename_i a ha
      split
      · exact ⟨_, l, rfl, h⟩
      · rename_i b hb
        exact (h.edge ha hb).bind (fun l' h' _ => Made.queue es h')

theorem Made.loop : ∀ (f depth : Nat) (d : Decoder) {l : Load}, Made s0 h0 l →
    Fine s0 h0 (fun _ => True) (tryDecodeLoop o c f depth d l)
  | 0, _, _, l, h => ⟨_, l, rfl, h⟩
  | f + 1, depth, d, l, h => by
    rw [tryDecodeLoop]
    split
    · exact ⟨_, l, rfl, h⟩
    · split
      · split
        · split
          · split
            · exact ⟨_, l, rfl, h⟩
            · split
              · exact ⟨_, l, rfl, h⟩
              · exact (h.nodes _).bind (fun l' h' _ => Made.loop f _ _ h')
          · split
            · split
              · exact ⟨_, l, rfl, h⟩
              · split
                · exact ⟨_, l, rfl, h⟩
                · exact (h.edges _).bind (fun l' h' _ => Made.loop f _ _ h')
            · exact Made.loop f _ _ h
        · exact h.queue _
        · exact Made.loop f _ _ h
      · split <;> exact Made.loop f _ _ h

end Json
end LPG
