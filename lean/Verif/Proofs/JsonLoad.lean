import Verif.Spec.JsonGraph
import Verif.Proofs.JsonText
import Verif.Proofs.Clone
import Verif.Proofs.WorldCore
import Mathlib.Data.List.Perm.Subperm
/-! `Decode` adds what the document says. -/
namespace LPG.Json
open State

/-- the unmarshaler in use: the one given, or `json.Unmarshal` with the key as it is -/
def Codec.unm (c : Codec) (k : String) (j : JVal) : Option (String × Value) :=
  match c.unmarshaler with
  | none => some (k, c.unmarshal j)
  | some f => f k j

theorem unmarshalProperties_none {c : Codec} : ∀ {ps : AMap String JVal} {ret : Props},
    unmarshalProperties c ps ret = none → ∃ p ∈ ps, c.unm p.1 p.2 = none
  | [], ret, h => by cases h
  | (k, j) :: ps, ret, h => by
    rw [unmarshalProperties] at h
    split at h
    · rename_i h1; exact ⟨(k, j), by simp, h1⟩
    · split at h <;>
      · obtain ⟨p, h1, h2⟩ := unmarshalProperties_none h
        exact ⟨p, by simp [h1], h2⟩

theorem unmarshalProperties_some {c : Codec} : ∀ {ps : AMap String JVal} {ret p : Props},
    unmarshalProperties c ps ret = some p → (AMap.keys ret).Nodup →
    (AMap.keys p).Nodup ∧ (∀ q ∈ ps, c.unm q.1 q.2 ≠ none) ∧
    (∀ k v, AMap.get p k = some v → AMap.get ret k = some v ∨ (k ≠ "" ∧ ∃ k' j, (k', j) ∈ ps ∧ c.unm k' j = some (k, v))) ∧
    (∀ k, AMap.get ret k ≠ none → AMap.get p k ≠ none) ∧
    (∀ k' j k v, (k', j) ∈ ps → c.unm k' j = some (k, v) → k ≠ "" → AMap.get p k ≠ none)
  | [], ret, p, h, hn => by
    cases h
    exact ⟨hn, by simp, fun k v h => Or.inl h, fun k h => h, by simp⟩
  | (k0, j0) :: ps, ret, p, h, hn => by
    rw [unmarshalProperties] at h
    split at h
    · cases h
    · rename_i k1 v1 h1
      have h1' : c.unm k0 j0 = some (k1, v1) := h1
      split at h
      · rename_i hk
        obtain ⟨g1, g2, g3, g4, g5⟩ := unmarshalProperties_some h (AMap.nodup_set hn _ _)
        refine ⟨g1, ?_, ?_, ?_, ?_⟩
        · intro q hq
          rcases List.mem_cons.1 hq with rfl | hq
          · rw [h1']; simp
          · exact g2 q hq
        · intro k v hkv
          rcases g3 k v hkv with h3 | ⟨h, k', j, h', h''⟩
          · rw [AMap.get_set] at h3
            split at h3
            · rename_i e; subst e
              obtain rfl := Option.some.inj h3
              exact Or.inr ⟨hk, k0, j0, by simp, h1'⟩
            · exact Or.inl h3
          · exact Or.inr ⟨h, k', j, by simp [h'], h''⟩
        · intro k hne
          apply g4
          rw [AMap.get_set]
          split
          · simp
          · exact hne
        · intro k' j k v hm hu hne
          rcases List.mem_cons.1 hm with h | h
          · cases h
            rw [h1'] at hu; cases hu
            apply g4
            rw [AMap.get_set]; simp
          · exact g5 k' j k v h hu hne
      · rename_i hk
        have hk : k1 = "" := Decidable.not_not.1 hk
        obtain ⟨g1, g2, g3, g4, g5⟩ := unmarshalProperties_some h hn
        refine ⟨g1, ?_, ?_, g4, ?_⟩
        · intro q hq
          rcases List.mem_cons.1 hq with rfl | hq
          · rw [h1']; simp
          · exact g2 q hq
        · intro k v hkv
          rcases g3 k v hkv with h | ⟨h, k', j, h', h''⟩
          · exact Or.inl h
          · exact Or.inr ⟨h, k', j, by simp [h'], h''⟩
        · intro k' j k v hm hu hne
          rcases List.mem_cons.1 hm with h | h
          · cases h
            rw [h1'] at hu; cases hu
            exact absurd hk hne
          · exact g5 k' j k v h hu hne

theorem propsRead {c : Codec} {ps : AMap String JVal} {p : Props} (h : unmarshalProperties c ps [] = some p) :
    (AMap.keys p).Nodup ∧ (∀ q ∈ ps, c.unm q.1 q.2 ≠ none) ∧ PropsRead c.unm ps (fun k => AMap.get p k) ∧
    ∀ k v, (k, v) ∈ p → ∃ k' j, c.unm k' j = some (k, v) := by
  obtain ⟨g1, g2, g3, g4, g5⟩ := unmarshalProperties_some h (by simp [AMap.keys])
  refine ⟨g1, g2, ⟨fun k v hk => ?_, g5⟩, fun k v hkv => ?_⟩
  · rcases g3 k v hk with h | h
    · cases h
    · exact h
  · rcases g3 k v (AMap.get_of_mem g1 hkv) with h | ⟨_, k', j, _, h⟩
    · cases h
    · exact ⟨k', j, h⟩

/-- The state of `Decode`. `U`: the indexes of the graph accept the values, and `GetEdges` can be run. `Ln`, `Le`: the lists of
nodes and edges were right. -/
structure Loading (c : Codec) (U Ln Le : Prop) (Pn Pe : String → Value → Prop) (R : List Nat) (s0 : State) (σ0 : Spec)
    (P : List (DocNode × Nat)) (Q : List (FullEdge × Nat)) (l : Load) (σ : Spec) : Prop where
  core : Core l.s σ
  nrep : Ln → NReady l.s σ
  aerep : Le → AERep R l.s σ
  old : ∀ e ∈ R, e < σ.next
  emono : l.s.AllMono
  ends : U → l.s.getEdges ≠ none
  mono : Mono l.s.nptr l.s.allNodes l.s.idBase
  safe : U → SafeIx Pn Pe l.s
  vals : U → ∀ k j k' v, c.unm k j = some (k', v) → Pn k' v ∧ Pe k' v
  hist : ∃ ops, LPG.runFrom s0 ops = some l.s ∧ σ0.ValidFrom ops ∧ σ = σ0.runFrom ops ∧
    ∀ op ∈ ops, (∃ ls ps, op = .newNode ls ps) ∨ ∃ a b lb ps, op = .newEdge a b lb ps
  loaded : Loaded c.unm σ0 σ P Q
  known : ∀ i, l.nodeMap.get i = none → ∀ p ∈ P, p.1.n ≠ i
  found : ∀ i a, l.nodeMap.get i = some a → ∃ p ∈ P, p.1.n = i ∧ p.2 = a
  fineN : ∀ p ∈ P, ∀ m ∈ p.1.properties, c.unm m.1 m.2 ≠ none
  fineE : ∀ q ∈ Q, ∀ m ∈ q.1.properties, c.unm m.1 m.2 ≠ none

variable {c : Codec} {U Ln Le : Prop} {Pn Pe : String → Value → Prop} {R : List Nat} {s0 : State} {σ0 : Spec}
  {P : List (DocNode × Nat)} {Q : List (FullEdge × Nat)} {l : Load} {σ : Spec}

theorem valid_snoc {op : Op} : ∀ {ops : List Op} {σ : Spec}, σ.ValidFrom ops → (σ.runFrom ops).Valid op →
    σ.ValidFrom (ops ++ [op])
  | [], σ, _, h => ⟨h, trivial⟩
  | o :: ops, σ, h1, h2 => ⟨h1.1, valid_snoc (ops := ops) h1.2 h2⟩

theorem run_snoc {op : Op} {s' : State} : ∀ {ops : List Op} {s s1 : State}, LPG.runFrom s ops = some s1 →
    LPG.step s1 op = some s' → LPG.runFrom s (ops ++ [op]) = some s'
  | [], s, s1, h1, h2 => by cases h1; simp only [List.nil_append, LPG.runFrom, h2]
  | o :: ops, s, s1, h1, h2 => by
    rw [LPG.runFrom] at h1
    simp only [List.cons_append, LPG.runFrom]
    split at h1
    · cases h1
    · exact run_snoc h1 h2

/-- The parts that are the same for nodes and edges. -/
theorem Loading.grow (h : Loading c U Ln Le Pn Pe R s0 σ0 P Q l σ) {op : Op} (hv : σ.Valid op)
    (hop : (∃ ls ps, op = .newNode ls ps) ∨ ∃ a b lb ps, op = .newEdge a b lb ps)
    (hn : ∀ k v, (k, v) ∈ op.nodeVals → ∃ k' j, c.unm k' j = some (k, v))
    (he : ∀ k v, (k, v) ∈ op.edgeVals → ∃ k' j, c.unm k' j = some (k, v)) :
    (U → LPG.step l.s op ≠ none) ∧ ∀ s', LPG.step l.s op = some s' →
      Core s' (σ.step op) ∧ (Ln → NReady s' (σ.step op)) ∧ (Le → AERep R s' (σ.step op)) ∧
      (∀ e ∈ R, e < (σ.step op).next) ∧ (s'.AllMono ∧ (U → s'.getEdges ≠ none)) ∧ Mono s'.nptr s'.allNodes s'.idBase ∧ (U → SafeIx Pn Pe s') ∧
      (∃ ops, LPG.runFrom s0 ops = some s' ∧ σ0.ValidFrom ops ∧ σ.step op = σ0.runFrom ops ∧
        ∀ op ∈ ops, (∃ ls ps, op = .newNode ls ps) ∨ ∃ a b lb ps, op = .newEdge a b lb ps) := by
  have tot : U → ∃ s', LPG.step l.s op = some s' ∧ SafeIx Pn Pe s' := by
    intro hU
    refine step_total h.core (fun _ => h.ends hU) (fun _ _ _ => h.mono.lists) (h.safe hU) hv (fun k v hk => ?_) (fun k v hk => ?_) ?_ ?_
    · obtain ⟨k', j, hj⟩ := hn k v hk; exact (h.vals hU _ _ _ _ hj).1
    · obtain ⟨k', j, hj⟩ := he k v hk; exact (h.vals hU _ _ _ _ hj).2
    · rintro k t rfl; rcases hop with ⟨_, _, h⟩ | ⟨_, _, _, _, h⟩ <;> cases h
    · rintro k t rfl; rcases hop with ⟨_, _, h⟩ | ⟨_, _, _, _, h⟩ <;> cases h
  refine ⟨fun hU hne => ?_, fun s' hs => ?_⟩
  · obtain ⟨s', h1, _⟩ := tot hU
    rw [hne] at h1; cases h1
  · have hrl : σ.Relabeled R op = R := by
      rcases hop with ⟨_, _, rfl⟩ | ⟨_, _, _, _, rfl⟩ <;> rfl
    have n1 : Ln → NReady s' (σ.step op) := by
      intro hL
      rcases hop with ⟨_, _, rfl⟩ | ⟨_, _, _, _, rfl⟩
      · exact (h.nrep hL).newNode h.core hv hs
      · exact (h.nrep hL).newEdge h.core hv hs
    have a1 := fun hL => (h.aerep hL).step h.core hv hs h.old (by
      intro e _ hee
      rcases hop with ⟨_, _, rfl⟩ | ⟨_, _, _, _, rfl⟩ <;> simp [Spec.step, hee])
    rw [hrl] at a1
    refine ⟨h.core.step hv hs, n1, a1, ?_, ⟨h.emono.step hs, fun hU => getEdges_grow h.emono hop hs (h.ends hU)⟩, h.mono.step h.core hv hs, ?_, ?_⟩
    · intro e he
      rw [World.spec_step_next]
      exact Nat.lt_of_lt_of_le (h.old e he) (Nat.le_add_right _ _)
    · intro hU
      obtain ⟨s2, h1, h2⟩ := tot hU
      rw [hs] at h1; cases h1; exact h2
    · obtain ⟨ops, h1, h2, h3, h4⟩ := h.hist
      refine ⟨ops ++ [op], run_snoc h1 hs, valid_snoc h2 (h3 ▸ hv), ?_, ?_⟩
      · rw [h3]; simp [Spec.runFrom]
      · intro o ho
        rcases List.mem_append.1 ho with ho | ho
        · exact h4 o ho
        · simp at ho; subst ho; exact hop

theorem Loading.addsNode (h : Loading c U Ln Le Pn Pe R s0 σ0 P Q l σ) {node : DocNode} {p : Props}
    (hp : unmarshalProperties c node.properties [] = some p) :
    (U → LPG.step l.s (.newNode node.labels p) ≠ none) ∧ ∀ s', LPG.step l.s (.newNode node.labels p) = some s' →
      ∃ σ', Loading c U Ln Le Pn Pe R s0 σ0 (P ++ [(node, l.s.idBase)]) Q
        { l with s := s', nodeMap := l.nodeMap.set node.n l.s.idBase } σ' := by
  obtain ⟨g1, g2, g3, g4⟩ := propsRead hp
  obtain ⟨t1, t2⟩ := h.grow (op := .newNode node.labels p) g1 (Or.inl ⟨_, _, rfl⟩) g4 (by simp [Op.edgeVals])
  refine ⟨t1, fun s' hs => ?_⟩
  obtain ⟨k1, k2, k3, k4, ⟨k8, k9⟩, k5, k6, k7⟩ := t2 s' hs
  have hid : l.s.idBase = σ.next := h.core.next
  have hn : ∀ x ∈ σ.nodes, x ≠ σ.next := fun x hx => Nat.ne_of_lt (h.core.nLt x hx)
  have inP : ∀ p ∈ P, p.2 ∈ σ.nodes := fun p hp => by
    rw [h.loaded.nodes]; exact List.mem_append_right _ (List.mem_map_of_mem hp)
  refine ⟨_, k1, k2, k3, k4, k8, k9, k5, k6, h.vals, k7, ?_, ?_, ?_, ?_, h.fineE⟩
  · have L := h.loaded
    refine ⟨?_, L.edges, ?_, ?_, ?_, ?_, L.label, L.eprop, ?_, L.oldEdge⟩
    · simp only [Spec.step, L.nodes, List.map_append, List.map_cons, List.map_nil, List.append_assoc, hid]
    · intro q hq lb
      rcases List.mem_append.1 hq with hq | hq
      · simp only [Spec.step, upd_other _ _ (hn _ (inP q hq))]; exact L.labels q hq lb
      · simp at hq; subst hq
        simp only [Spec.step, hid, upd_same]
    · intro q hq
      rcases List.mem_append.1 hq with hq | hq
      · simp only [Spec.step, upd_other _ _ (hn _ (inP q hq))]; exact L.nprop q hq
      · simp at hq; subst hq
        simp only [Spec.step, hid, upd_same]; exact g3
    · intro q hq
      obtain ⟨p, h1, h2⟩ := L.src q hq
      exact ⟨p, by simp [h1], h2⟩
    · intro q hq
      obtain ⟨p, h1, h2⟩ := L.dst q hq
      exact ⟨p, by simp [h1], h2⟩
    · intro x hx
      have : x ∈ σ.nodes := by rw [L.nodes]; simp [hx]
      simp only [Spec.step, upd_other _ _ (hn x this)]
      exact L.oldNode x hx
  · intro i hi q hq
    simp only [AMap.get_set] at hi
    split at hi
    · cases hi
    · rename_i hne
      rcases List.mem_append.1 hq with hq | hq
      · exact h.known i hi q hq
      · simp at hq; subst hq; exact fun h => hne h.symm
  · intro i a hi
    simp only [AMap.get_set] at hi
    split at hi
    · rename_i e; cases hi
      exact ⟨(node, l.s.idBase), by simp, e.symm, rfl⟩
    · obtain ⟨p, h1, h2⟩ := h.found i a hi
      exact ⟨p, by simp [h1], h2⟩
  · intro q hq
    rcases List.mem_append.1 hq with hq | hq
    · exact h.fineN q hq
    · simp at hq; subst hq; exact g2

theorem Loading.addsEdge (h : Loading c U Ln Le Pn Pe R s0 σ0 P Q l σ) {e : FullEdge} {a b : Nat}
    (ha : ∃ p ∈ P, p.1.n = e.from ∧ p.2 = a) (hb : ∃ p ∈ P, p.1.n = e.to ∧ p.2 = b) :
    (U → addEdge c l a b e.label e.properties ≠ none) ∧
    ∀ err l', addEdge c l a b e.label e.properties = some (err, l') →
      l'.nodeMap = l.nodeMap ∧ l'.queue = l.queue ∧
      ((err = none ∧ (∀ p ∈ e.properties, c.unm p.1 p.2 ≠ none) ∧
          ∃ x σ', Loading c U Ln Le Pn Pe R s0 σ0 P (Q ++ [(e, x)]) l' σ') ∨
       (err = some .property ∧ l' = l ∧ ∃ p ∈ e.properties, c.unm p.1 p.2 = none)) := by
  unfold addEdge
  cases hu : unmarshalProperties c e.properties [] with
  | none =>
    simp only
    refine ⟨fun _ h => (by cases h), fun err l' hh => ?_⟩
    cases hh
    exact ⟨rfl, rfl, Or.inr ⟨rfl, rfl, unmarshalProperties_none hu⟩⟩
  | some p =>
    simp only
    obtain ⟨g1, g2, g3, g4⟩ := propsRead hu
    have inP : ∀ p ∈ P, p.2 ∈ σ.nodes := fun p hp => by
      rw [h.loaded.nodes]; exact List.mem_append_right _ (List.mem_map_of_mem hp)
    obtain ⟨pa, hpa, hna, rfl⟩ := ha
    obtain ⟨pb, hpb, hnb, rfl⟩ := hb
    obtain ⟨t1, t2⟩ := h.grow (op := .newEdge pa.2 pb.2 e.label p) ⟨inP _ hpa, inP _ hpb, g1⟩
      (Or.inr ⟨_, _, _, _, rfl⟩) (by simp [Op.nodeVals]) g4
    cases hs : LPG.step l.s (.newEdge pa.2 pb.2 e.label p) with
    | none => exact ⟨fun hU => absurd hs (t1 hU), fun err l' hh => by cases hh⟩
    | some s' =>
      simp only
      refine ⟨fun _ h => (by cases h), fun err l' hh => ?_⟩
      cases hh
      obtain ⟨k1, k2, k3, k4, ⟨k8, k9⟩, k5, k6, k7⟩ := t2 s' hs
      refine ⟨rfl, rfl, Or.inl ⟨rfl, g2, σ.next, _, k1, k2, k3, k4, k8, k9, k5, k6, h.vals, k7, ?_, h.known, h.found, h.fineN, ?_⟩⟩
      rotate_left
      · intro q hq
        rcases List.mem_append.1 hq with hq | hq
        · exact h.fineE q hq
        · simp at hq; subst hq; exact g2
      have L := h.loaded
      have hn : ∀ x ∈ σ.edges, x ≠ σ.next := fun x hx => Nat.ne_of_lt (h.core.eLt x hx)
      have inQ : ∀ q ∈ Q, q.2 ∈ σ.edges := fun q hq => by
        rw [L.edges]; exact List.mem_append_right _ (List.mem_map_of_mem hq)
      refine ⟨L.nodes, ?_, L.labels, L.nprop, ?_, ?_, ?_, ?_, L.oldNode, ?_⟩
      · simp only [Spec.step, L.edges, List.map_append, List.map_cons, List.map_nil, List.append_assoc]
      · intro q hq
        rcases List.mem_append.1 hq with hq | hq
        · simp only [Spec.step, upd_other _ _ (hn _ (inQ q hq))]; exact L.src q hq
        · simp at hq; subst hq
          simp only [Spec.step, upd_same]; exact ⟨pa, hpa, hna, rfl⟩
      · intro q hq
        rcases List.mem_append.1 hq with hq | hq
        · simp only [Spec.step, upd_other _ _ (hn _ (inQ q hq))]; exact L.dst q hq
        · simp at hq; subst hq
          simp only [Spec.step, upd_same]; exact ⟨pb, hpb, hnb, rfl⟩
      · intro q hq
        rcases List.mem_append.1 hq with hq | hq
        · simp only [Spec.step, upd_other _ _ (hn _ (inQ q hq))]; exact L.label q hq
        · simp at hq; subst hq
          simp only [Spec.step, upd_same]
      · intro q hq
        rcases List.mem_append.1 hq with hq | hq
        · simp only [Spec.step, upd_other _ _ (hn _ (inQ q hq))]; exact L.eprop q hq
        · simp at hq; subst hq
          simp only [Spec.step, upd_same]; exact g3
      · intro x hx
        have : x ∈ σ.edges := by rw [L.edges]; simp [hx]
        simp only [Spec.step, upd_other _ _ (hn x this)]
        exact L.oldEdge x hx

/-- The number of a node without an edge to it that is waiting. -/
def full (n : Int) (e : OutEdge) : FullEdge := { «from» := n, «to» := e.to, label := e.label, properties := e.properties }

theorem Loading.queued (h : Loading c U Ln Le Pn Pe R s0 σ0 P Q l σ) (q : List FullEdge) :
    Loading c U Ln Le Pn Pe R s0 σ0 P Q { l with queue := q } σ :=
  ⟨h.core, h.nrep, h.aerep, h.old, h.emono, h.ends, h.mono, h.safe, h.vals, h.hist, h.loaded, h.known, h.found, h.fineN, h.fineE⟩

/-- What a part of `Decode` that reads the nodes `N` and the edges `E` does. -/
def Part (c : Codec) (U Ln Le : Prop) (Pn Pe : String → Value → Prop) (R : List Nat) (s0 : State) (σ0 : Spec)
    (P : List (DocNode × Nat)) (Q : List (FullEdge × Nat)) (q : List FullEdge) (N : List DocNode) (E : List FullEdge)
    (r : Outcome) : Prop :=
  (U → r ≠ none) ∧ ∀ err l', r = some (err, l') → ∃ P' Q' σ', Loading c U Ln Le Pn Pe R s0 σ0 P' Q' l' σ' ∧ (∀ p ∈ P, p ∈ P') ∧
    (err = none → P'.map Prod.fst = P.map Prod.fst ++ N ∧
      (Q'.map Prod.fst ++ l'.queue).Perm (Q.map Prod.fst ++ q ++ E)) ∧
    (∀ x, err = some x → x = .property ∧ ¬ PropsFine c.unm N E) ∧
    P'.map Prod.fst <+: P.map Prod.fst ++ N ∧ (Q'.map Prod.fst ++ l'.queue).Subperm (Q.map Prod.fst ++ q ++ E)

theorem PropsFine.append {unm : String → JVal → Option (String × Value)} {N M : List DocNode} {E F : List FullEdge} :
    PropsFine unm (N ++ M) (E ++ F) ↔ PropsFine unm N E ∧ PropsFine unm M F := by
  simp only [PropsFine, List.mem_append]
  constructor
  · exact fun ⟨h1, h2⟩ => ⟨⟨fun n hn => h1 n (Or.inl hn), fun e he => h2 e (Or.inl he)⟩,
      ⟨fun n hn => h1 n (Or.inr hn), fun e he => h2 e (Or.inr he)⟩⟩
  · exact fun ⟨h1, h2⟩ => ⟨fun n hn => hn.elim (h1.1 n) (h2.1 n), fun e he => he.elim (h1.2 e) (h2.2 e)⟩

/-- Two parts, one after the other; the second runs only if the first succeeds. -/
theorem Part.andThen {q : List FullEdge} {N M : List DocNode} {E F : List FullEdge} {r : Outcome} {g : Load → Outcome}
    (h : Part c U Ln Le Pn Pe R s0 σ0 P Q q N E r)
    (hg : ∀ P' Q' l' σ', Loading c U Ln Le Pn Pe R s0 σ0 P' Q' l' σ' → (∀ p ∈ P, p ∈ P') →
      r = some (none, l') →
      Part c U Ln Le Pn Pe R s0 σ0 P' Q' l'.queue M F (g l')) :
    Part c U Ln Le Pn Pe R s0 σ0 P Q q (N ++ M) (E ++ F)
      (match (generalizing := false) r with | some (none, l') => g l' | r => r) := by
  obtain ⟨h1, h2⟩ := h
  cases r with
  | none =>
    refine ⟨h1, fun err l' hh => by cases hh⟩
  | some x =>
    obtain ⟨err, l1⟩ := x
    obtain ⟨P1, Q1, σ1, k1, kp, k2, k3, k4, k5⟩ := h2 err l1 rfl
    cases err with
    | some x =>
      refine ⟨fun _ hh => (by cases hh), fun err l' hh => ?_⟩
      cases hh
      refine ⟨P1, Q1, σ1, k1, kp, fun h => (by cases h), fun y hy => ⟨(k3 y hy).1, fun hf => (k3 y hy).2 ?_⟩, ?_, ?_⟩
      · exact (PropsFine.append.1 hf).1
      · rw [← List.append_assoc]; exact k4.trans (List.prefix_append _ _)
      · rw [← List.append_assoc]; exact k5.trans (List.sublist_append_left _ _).subperm
    | none =>
      obtain ⟨p1, p2⟩ := k2 rfl
      obtain ⟨m1, m2⟩ := hg P1 Q1 l1 σ1 k1 kp rfl
      refine ⟨m1, fun err l' hh => ?_⟩
      obtain ⟨P2, Q2, σ2, n1, np, n2, n3, n4, n5⟩ := m2 err l' hh
      refine ⟨P2, Q2, σ2, n1, fun p hp => np p (kp p hp), fun he => ?_, fun x hx => ⟨(n3 x hx).1, fun hf =>
        (n3 x hx).2 (PropsFine.append.1 hf).2⟩, ?_, ?_⟩
      · obtain ⟨o1, o2⟩ := n2 he
        refine ⟨by rw [o1, p1, List.append_assoc], o2.trans ?_⟩
        rw [← List.append_assoc]
        exact p2.append_right F
      · rw [p1, List.append_assoc] at n4; exact n4
      · rw [← List.append_assoc]; exact n5.trans (p2.append_right F).subperm

theorem Part.done (h : Loading c U Ln Le Pn Pe R s0 σ0 P Q l σ) : Part c U Ln Le Pn Pe R s0 σ0 P Q l.queue [] [] (some (none, l)) := by
  refine ⟨fun _ hh => (by cases hh), fun err l' hh => ?_⟩
  cases hh
  exact ⟨P, Q, σ, h, fun _ h => h, fun _ => ⟨by simp, by simp⟩, fun x hx => (by cases hx), by simp, by simp only [List.append_nil]; exact List.Subperm.refl _⟩

theorem Loading.edgePart (h : Loading c U Ln Le Pn Pe R s0 σ0 P Q l σ) {e : FullEdge} {a b : Nat}
    (ha : ∃ p ∈ P, p.1.n = e.from ∧ p.2 = a) (hb : ∃ p ∈ P, p.1.n = e.to ∧ p.2 = b) :
    Part c U Ln Le Pn Pe R s0 σ0 P Q l.queue [] [e] (addEdge c l a b e.label e.properties) := by
  obtain ⟨h1, h2⟩ := h.addsEdge ha hb
  refine ⟨h1, fun err l' hh => ?_⟩
  obtain ⟨k1, k2, k3⟩ := h2 err l' hh
  rcases k3 with ⟨rfl, k3, x, σ', k4⟩ | ⟨rfl, rfl, p, hp, k3⟩
  · have hp : ((Q ++ [(e, x)]).map Prod.fst ++ l'.queue).Perm (Q.map Prod.fst ++ l.queue ++ [e]) := by
      rw [k2]
      simp only [List.map_append, List.map_cons, List.map_nil, List.append_assoc]
      exact List.Perm.append_left _ List.perm_append_comm
    exact ⟨P, _, σ', k4, fun _ h => h, fun _ => ⟨by simp, hp⟩, fun x hx => (by cases hx), by simp, hp.subperm⟩
  · refine ⟨P, Q, σ, h, fun _ h => h, fun h => (by cases h), fun x hx => ⟨by cases hx; rfl, fun hf => ?_⟩, by simp,
      (List.sublist_append_left _ _).subperm⟩
    exact hf.2 e (by simp) p hp k3

theorem Part.queued {q es : List FullEdge} {e : FullEdge} {r : Outcome}
    (hr : Part c U Ln Le Pn Pe R s0 σ0 P Q (q ++ [e]) [] es r) : Part c U Ln Le Pn Pe R s0 σ0 P Q q [] (e :: es) r := by
  obtain ⟨h1, h2⟩ := hr
  refine ⟨h1, fun err l' hh => ?_⟩
  obtain ⟨P', Q', σ', k1, kp, k2, k3, k4, k5⟩ := h2 err l' hh
  refine ⟨P', Q', σ', k1, kp, fun he => ?_, fun x hx => ⟨(k3 x hx).1, fun hf => (k3 x hx).2 ?_⟩, k4, by simpa using k5⟩
  · obtain ⟨o1, o2⟩ := k2 he
    exact ⟨o1, by simpa using o2⟩
  · exact ⟨by simp, fun e' he' => hf.2 e' (by simp [he'])⟩

theorem Loading.outgoing {n : Int} {a : Nat} : ∀ (es : List OutEdge) {P : List (DocNode × Nat)}
    {Q : List (FullEdge × Nat)} {l : Load} {σ : Spec}, Loading c U Ln Le Pn Pe R s0 σ0 P Q l σ →
    (∃ p ∈ P, p.1.n = n ∧ p.2 = a) →
    Part c U Ln Le Pn Pe R s0 σ0 P Q l.queue [] (es.map (full n)) (addOutgoing c n a es l)
  | [], P, Q, l, σ, h, ha => Part.done h
  | e :: es, P, Q, l, σ, h, ha => by
    rw [addOutgoing]
    cases hg : l.nodeMap.get e.to with
    | none => exact Part.queued (Loading.outgoing es (h.queued _) ha)
    | some b =>
      simp only
      have h1 := h.edgePart (e := full n e) (a := a) (b := b) ha (h.found _ _ hg)
      exact h1.andThen (fun P' Q' l' σ' h' hp _ => Loading.outgoing es h' (by
        obtain ⟨p, h1, h2⟩ := ha; exact ⟨p, hp p h1, h2⟩))

theorem Loading.node (h : Loading c U Ln Le Pn Pe R s0 σ0 P Q l σ) (node : DocNode) :
    Part c U Ln Le Pn Pe R s0 σ0 P Q l.queue [node] (node.edges.map (full node.n)) (addNode c l node) := by
  unfold addNode
  cases hu : unmarshalProperties c node.properties [] with
  | none =>
    simp only
    refine ⟨fun _ h => (by cases h), fun err l' hh => ?_⟩
    cases hh
    obtain ⟨p, h1, h2⟩ := unmarshalProperties_none hu
    exact ⟨P, Q, σ, h, fun _ h => h, fun h => (by cases h), fun x hx => ⟨by cases hx; rfl, fun hf =>
      hf.1 node (by simp) p h1 h2⟩, List.prefix_append _ _, (List.sublist_append_left _ _).subperm⟩
  | some p =>
    simp only
    obtain ⟨h1, h2⟩ := h.addsNode hu
    cases hs : LPG.step l.s (.newNode node.labels p) with
    | none => exact ⟨fun hU => absurd hs (h1 hU), fun err l' hh => by cases hh⟩
    | some s' =>
      simp only
      obtain ⟨σ', h3⟩ := h2 s' hs
      obtain ⟨k1, k2⟩ := Loading.outgoing node.edges h3 (n := node.n) (a := l.s.idBase) ⟨(node, l.s.idBase), by simp, rfl, rfl⟩
      refine ⟨k1, fun err l' hh => ?_⟩
      obtain ⟨P', Q', σ', m1, mp, m2, m3, m4, m5⟩ := k2 err l' hh
      refine ⟨P', Q', σ', m1, fun p hp => mp p (by simp [hp]), fun he => ?_, fun x hx => ⟨(m3 x hx).1, fun hf =>
        (m3 x hx).2 ⟨by simp, hf.2⟩⟩, by simpa using m4, m5⟩
      obtain ⟨o1, o2⟩ := m2 he
      exact ⟨by simpa using o1, o2⟩

theorem Loading.nodes : ∀ (ns : List DocNode) {P : List (DocNode × Nat)}
    {Q : List (FullEdge × Nat)} {l : Load} {σ : Spec}, Loading c U Ln Le Pn Pe R s0 σ0 P Q l σ →
    Part c U Ln Le Pn Pe R s0 σ0 P Q l.queue ns (embedded ns) (addNodes c ns l)
  | [], P, Q, l, σ, h => Part.done h
  | n :: ns, P, Q, l, σ, h => by
    rw [addNodes]
    exact (h.node n).andThen (fun P' Q' l' σ' h' _ _ => Loading.nodes ns h')

theorem Loading.edges : ∀ (es : List FullEdge) {P : List (DocNode × Nat)}
    {Q : List (FullEdge × Nat)} {l : Load} {σ : Spec}, Loading c U Ln Le Pn Pe R s0 σ0 P Q l σ →
    Part c U Ln Le Pn Pe R s0 σ0 P Q l.queue [] es (addEdges c es l)
  | [], P, Q, l, σ, h => Part.done h
  | e :: es, P, Q, l, σ, h => by
    rw [addEdges]
    cases hf : l.nodeMap.get e.from with
    | none => exact Part.queued (Loading.edges es (h.queued _))
    | some a =>
      cases hg : l.nodeMap.get e.to with
      | none => exact Part.queued (Loading.edges es (h.queued _))
      | some b =>
        exact (h.edgePart (h.found _ _ hf) (h.found _ _ hg)).andThen (fun P' Q' l' σ' h' _ _ => Loading.edges es h')

end LPG.Json
