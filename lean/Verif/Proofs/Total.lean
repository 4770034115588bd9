import Verif.Spec.IndexValues
import Verif.Proofs.Find
import Verif.Proofs.EdgeMono
/-!
# Operations do not panic
-/
namespace LPG
open State

def Index.Safe (P : Value → Prop) : Index → Prop
  | .btree t => (∀ v w, P v → P w → cmp v w ≠ none) ∧ ∀ e ∈ t, P e.1
  | .hash _ => ∀ v, P v → hkey (unwrap1 v) ≠ none

theorem SetTree.get_total {t : SetTree} {P : Value → Prop} (h : Index.Safe P (.btree t)) {v : Value} (hv : P v) :
    ∃ r, SetTree.get t v = some r := by
  unfold SetTree.get
  rw [if_neg]
  · exact ⟨_, rfl⟩
  · simp only [List.any_eq_true, not_exists, not_and, Bool.not_eq_true]
    intro e he
    have := h.1 v e.1 hv (h.2 e he)
    cases hc : cmp v e.1 with
    | none => exact absurd hc this
    | some _ => rfl

theorem update_keys {t : SetTree} {k : Value} {s : FSet Nat} {P : Value → Prop} (h : ∀ e ∈ t, P e.1) :
    ∀ e ∈ SetTree.update t k s, P e.1 := by
  intro e he
  unfold SetTree.update at he
  obtain ⟨x, hx, rfl⟩ := List.mem_map.1 he
  split <;> exact h x hx

theorem Index.add_total {ix : Index} {P : Value → Prop} (h : ix.Safe P) {v : Value} (hv : P v) (id : Nat) :
    ∃ ix', ix.add v id = some ix' ∧ ix'.Safe P := by
  cases ix with
  | btree t =>
    obtain ⟨r, hr⟩ := SetTree.get_total h hv
    cases r with
    | none =>
      refine ⟨.btree (SetTree.put t v (FSet.add [] id id)), by simp only [Index.add, SetTree.add, hr, Option.map_some],
        h.1, ?_⟩
      intro e he
      rcases (mem_put _ _ _ _).1 he with rfl | he
      · exact hv
      · exact h.2 e he
    | some s =>
      exact ⟨.btree (SetTree.update t v (FSet.add s id id)),
        by simp only [Index.add, SetTree.add, hr, Option.map_some], h.1, update_keys h.2⟩
  | hash t =>
    cases hk : hkey (unwrap1 v) with
    | none => exact absurd hk (h v hv)
    | some k =>
      have : ∃ t', t.add v id = some t' := by unfold HashIx.add; rw [hk]; exact ⟨_, rfl⟩
      obtain ⟨t', ht⟩ := this
      exact ⟨.hash t', by simp only [Index.add, ht, Option.map_some], h⟩

theorem Index.remove_total {ix : Index} {P : Value → Prop} (h : ix.Safe P) {v : Value} (hv : P v) (id : Nat) :
    ∃ ix', ix.remove v id = some ix' ∧ ix'.Safe P := by
  cases ix with
  | btree t =>
    obtain ⟨r, hr⟩ := SetTree.get_total h hv
    cases r with
    | none => exact ⟨.btree t, by simp only [Index.remove, SetTree.remove, hr, Option.map_some], h⟩
    | some s =>
      by_cases hl : (FSet.remove s id).length = 0
      · refine ⟨.btree (SetTree.delete t v),
          by simp only [Index.remove, SetTree.remove, hr, if_pos hl, Option.map_some], h.1, ?_⟩
        intro e he
        exact h.2 e (List.mem_filter.1 he).1
      · exact ⟨.btree (SetTree.update t v (FSet.remove s id)),
          by simp only [Index.remove, SetTree.remove, hr, if_neg hl, Option.map_some], h.1, update_keys h.2⟩
  | hash t =>
    cases hk : hkey (unwrap1 v) with
    | none => exact absurd hk (h v hv)
    | some k =>
      have : ∃ t', t.remove v id = some t' := by
        unfold HashIx.remove
        rw [hk]
        split
        · exact ⟨_, rfl⟩
        · simp only
          split
          · exact ⟨_, rfl⟩
          · split
            · exact ⟨_, rfl⟩
            · exact ⟨_, rfl⟩
      obtain ⟨t', ht⟩ := this
      exact ⟨.hash t', by simp only [Index.remove, ht, Option.map_some], h⟩

def AllSafe (P : String → Value → Prop) (ixs : Indexes) : Prop :=
  ∀ k ix, AMap.get ixs k = some ix → ix.Safe (P k)

theorem AllSafe.add {P : String → Value → Prop} {ixs : Indexes} (h : AllSafe P ixs) {k : String} {v : Value}
    (hv : P k v) (id : Nat) : ∃ ixs', Indexes.add ixs k v id = some ixs' ∧ AllSafe P ixs' := by
  cases hg : AMap.get ixs k with
  | none => exact ⟨ixs, by simp [Indexes.add, hg], h⟩
  | some ix =>
    obtain ⟨ix', h1, h2⟩ := Index.add_total (h k ix hg) hv id
    refine ⟨AMap.set ixs k ix', by simp only [Indexes.add, hg, h1, Option.map_some], ?_⟩
    intro k' jx hk
    rw [AMap.get_set] at hk
    split at hk
    · rename_i e; cases hk; subst e; exact h2
    · exact h k' jx hk

theorem AllSafe.remove {P : String → Value → Prop} {ixs : Indexes} (h : AllSafe P ixs) {k : String} {v : Value}
    (hv : P k v) (id : Nat) : ∃ ixs', Indexes.remove ixs k v id = some ixs' ∧ AllSafe P ixs' := by
  cases hg : AMap.get ixs k with
  | none => exact ⟨ixs, by simp [Indexes.remove, hg], h⟩
  | some ix =>
    obtain ⟨ix', h1, h2⟩ := Index.remove_total (h k ix hg) hv id
    refine ⟨AMap.set ixs k ix', by simp only [Indexes.remove, hg, h1, Option.map_some], ?_⟩
    intro k' jx hk
    rw [AMap.get_set] at hk
    split at hk
    · rename_i e; cases hk; subst e; exact h2
    · exact h k' jx hk

theorem AllSafe.addAll {P : String → Value → Prop} {id : Nat} : ∀ {ps : Props} {ixs : Indexes}, AllSafe P ixs →
    (∀ k v, (k, v) ∈ ps → P k v) → ∃ ixs', Indexes.addAll id ps ixs = some ixs' ∧ AllSafe P ixs'
  | [], ixs, h, _ => ⟨ixs, rfl, h⟩
  | (k, v) :: ps, ixs, h, hp => by
    obtain ⟨i1, h1, h2⟩ := h.add (hp k v (by simp)) id
    obtain ⟨i2, h3, h4⟩ := AllSafe.addAll (ps := ps) h2 (fun k v hm => hp k v (List.mem_cons_of_mem _ hm))
    exact ⟨i2, by rw [Indexes.addAll, h1]; exact h3, h4⟩

theorem AllSafe.removeAll {P : String → Value → Prop} {id : Nat} : ∀ {ps : Props} {ixs : Indexes}, AllSafe P ixs →
    (∀ k v, (k, v) ∈ ps → P k v) → ∃ ixs', Indexes.removeAll id ps ixs = some ixs' ∧ AllSafe P ixs'
  | [], ixs, h, _ => ⟨ixs, rfl, h⟩
  | (k, v) :: ps, ixs, h, hp => by
    obtain ⟨i1, h1, h2⟩ := h.remove (hp k v (by simp)) id
    obtain ⟨i2, h3, h4⟩ := AllSafe.removeAll (ps := ps) h2 (fun k v hm => hp k v (List.mem_cons_of_mem _ hm))
    exact ⟨i2, by rw [Indexes.removeAll, h1]; exact h3, h4⟩

theorem AMap.mem_set {β : Type} {k k' : String} {v v' : β} : ∀ {m : AMap String β}, (k', v') ∈ AMap.set m k v →
    (k', v') = (k, v) ∨ (k', v') ∈ m
  | [], h => by simpa [AMap.set] using h
  | (k0, v0) :: m, h => by
    rw [AMap.set] at h
    split at h
    · rename_i e
      rcases List.mem_cons.1 h with h | h
      · subst e; exact Or.inl h
      · exact Or.inr (List.mem_cons_of_mem _ h)
    · rcases List.mem_cons.1 h with h | h
      · right; rw [h]; exact List.mem_cons_self
      · rcases AMap.mem_set h with h | h
        · exact Or.inl h
        · exact Or.inr (List.mem_cons_of_mem _ h)

theorem AMap.mem_del {β : Type} {k k' : String} {v' : β} : ∀ {m : AMap String β}, (k', v') ∈ AMap.del m k →
    (k', v') ∈ m
  | [], h => by simp [AMap.del] at h
  | (k0, v0) :: m, h => by
    rw [AMap.del] at h
    split at h
    · exact List.mem_cons_of_mem _ (AMap.mem_del h)
    · rcases List.mem_cons.1 h with h | h
      · rw [h]; exact List.mem_cons_self
      · exact List.mem_cons_of_mem _ (AMap.mem_del h)

theorem addObjects_total {P : Value → Prop} {key : String} {props : Nat → Props}
    (hp : ∀ n v, (key, v) ∈ props n → P v) : ∀ (xs : List Nat) {ix : Index}, ix.Safe P →
    ∃ ix', Index.addObjects key props xs ix = some ix' ∧ ix'.Safe P
  | [], ix, h => ⟨ix, rfl, h⟩
  | x :: xs, ix, h => by
    rw [Index.addObjects]
    cases hg : AMap.get (props x) key with
    | none => exact addObjects_total hp xs h
    | some v =>
      obtain ⟨i1, h1, h2⟩ := Index.add_total h (hp x v (AMap.mem_of_get hg)) x
      simp only [h1]
      exact addObjects_total hp xs h2

/-- All values stored are allowed, and the indexes accept the allowed values. -/
structure SafeIx (Pn Pe : String → Value → Prop) (s : State) : Prop where
  nvals : ∀ n k v, (k, v) ∈ s.nProps n → Pn k v
  evals : ∀ e k v, (k, v) ∈ s.eProps e → Pe k v
  nix : AllSafe Pn s.nodeIx
  eix : AllSafe Pe s.edgeIx

theorem SafeIx.init (Pn Pe : String → Value → Prop) : SafeIx Pn Pe State.new := by
  constructor <;> simp [State.new, AllSafe, AMap.get]

theorem SafeIx.detachEdge {Pn Pe : String → Value → Prop} {s : State} (h : SafeIx Pn Pe s) (e : Nat) :
    ∃ s', s.detachEdge e = some s' ∧ SafeIx Pn Pe s' := by
  obtain ⟨ixs, h1, h2⟩ := h.eix.removeAll (id := e) (h.evals e)
  refine ⟨{ (s.disconnect e).dropEdge e with edgeIx := ixs }, ?_, ⟨h.nvals, h.evals, h.nix, h2⟩⟩
  unfold State.detachEdge
  simp only
  have : Indexes.removeAll e (((s.disconnect e).dropEdge e).eProps e) ((s.disconnect e).dropEdge e).edgeIx = some ixs := h1
  rw [this]

theorem SafeIx.detach {Pn Pe : String → Value → Prop} {s : State} {σ : Spec} {n : Nat} (c : Core s σ)
    (h : SafeIx Pn Pe s) (hn : n ∈ σ.nodes) : ∃ s', s.detachNode n = some s' ∧ SafeIx Pn Pe s' := by
  obtain ⟨s', hs⟩ := detachNode_total (Q := fun s _ => SafeIx Pn Pe s) (good := fun _ => True)
    (fun s σ e _ h _ _ => h.detachEdge e) (fun _ _ _ _ h => ⟨h.nvals, h.evals, h.nix, h.eix⟩) c h hn
    (fun _ _ _ => trivial)
  refine ⟨s', hs, ?_⟩
  exact detachNode_ind (Q := fun s _ => SafeIx Pn Pe s) (good := fun _ => True)
    (fun s s' σ e _ h _ _ he => by
      obtain ⟨s2, h1, h2⟩ := h.detachEdge e
      rw [he] at h1; cases h1; exact h2)
    (fun _ _ _ _ h => ⟨h.nvals, h.evals, h.nix, h.eix⟩) c h hn (fun _ _ _ => trivial) hs

/-- `allEdges.add` does not fail if `GetEdges` can be run. -/
theorem add_of_getEdges {s : State} (h : s.getEdges ≠ none) (P : Slot) (label : Nat → String) (e : Nat) :
    ∃ p0 m, s.allEdges.add P label e = some (p0, m) := by
  unfold EdgeMap.add
  split
  · exact ⟨_, _, rfl⟩
  · split
    · rename_i h0 h1
      cases ho : s.allEdges.only with
      | none =>
        refine absurd ?_ h
        unfold State.getEdges EdgeMap.enum
        rw [if_neg h0, if_pos h1, ho]
        rfl
      | some o => exact ⟨_, _, rfl⟩
    · exact ⟨_, _, rfl⟩

theorem Core.newEdge_total {Pe : String → Value → Prop} {s : State} {σ : Spec} (c : Core s σ)
    (h : s.getEdges ≠ none) (hx : AllSafe Pe s.edgeIx) {a b : Nat} {l : String} {ps : Props}
    (hv : σ.Valid (.newEdge a b l ps)) (hp : ∀ k v, (k, v) ∈ ps → Pe k v) :
    ∃ s', s.newEdge a b l ps = some s' := by
  have hnx := c.next
  have hnn : σ.next ∉ σ.edges := fun hh => Nat.lt_irrefl _ (c.eLt _ hh)
  have hnn' : σ.next ∉ σ.nodes := fun hh => Nat.lt_irrefl _ (c.nLt _ hh)
  obtain ⟨p0, m, hadd⟩ := add_of_getEdges h (s.allocEdge a b l ps).slot0 (s.allocEdge a b l ps).eLabel s.idBase
  have hadd : (s.allocEdge a b l ps).allEdges.add (s.allocEdge a b l ps).slot0 (s.allocEdge a b l ps).eLabel s.idBase =
    some (p0, m) := hadd
  have c1 := (c.allocEdge a b l ps).withSlot0 p0 m (s.allocEdge a b l ps).nodeIx (s.allocEdge a b l ps).edgeIx
  obtain ⟨s2, h2, _⟩ := c1.connect (e := s.idBase) (by rw [hnx]; exact hnn) (by simp [hnx]) (by rw [hnx]; exact hnn')
    (by simp [State.allocEdge, hnx]) (by simp [State.allocEdge, hnx]; exact hv.2.2) (by
      simp [hnx]; exact ⟨hv.1, hv.2.1⟩)
  obtain ⟨q1, q2, im, om, hq⟩ := connect_frame h2
  obtain ⟨ixs, h3, _⟩ := hx.addAll (id := s.idBase) hp
  refine ⟨{ s2 with edgeIx := ixs }, ?_⟩
  rw [newEdge_eq, hadd]
  simp only
  have h2' : ({ s.allocEdge a b l ps with slot0 := p0, allEdges := m } : State).connect s.idBase = some s2 := h2
  rw [h2']
  simp only
  have : s2.edgeIx = s.edgeIx := by rw [hq]; rfl
  rw [this, h3]

theorem Core.setEdgeLabel_total {s : State} {σ : Spec} (h : Core s σ) {e : Nat} (hv : e ∈ σ.edges) (l : String) :
    ∃ s', s.setEdgeLabel e l = some s' := by
  unfold State.setEdgeLabel
  split
  · exact ⟨s, rfl⟩
  · have c := h.disconnect hv
    have hnotin : e ∉ (σ.dropEdge e).edges := by simp [Spec.dropEdge]
    have hne : ∀ x ∈ (σ.dropEdge e).edges, x ≠ e := by rintro x hx rfl; exact hnotin hx
    have c1 : Core { s.disconnect e with eLabel := upd (s.disconnect e).eLabel e l }
        { σ.dropEdge e with label := upd σ.label e l } := by
      refine ⟨c.next, c.nNodup, c.eNodup, c.nLt, c.eLt, c.disj, c.labels, c.nprops, ?_, c.eprops, c.ends, ?_, ?_,
        c.count⟩
      · intro x hx
        have := c.eattr x hx
        refine ⟨this.1, this.2.1, ?_⟩
        simp only [upd_other _ _ (hne x hx)]; exact this.2.2
      · intro n hn
        obtain ⟨xs, h1, h2⟩ := c.out n hn
        refine ⟨xs, h1, h2.congr (fun _ _ => rfl) ?_⟩
        intro x hx
        exact upd_other _ _ (hne x (List.mem_filter.1 (h1.mem_iff.1 hx)).1)
      · intro n hn
        obtain ⟨xs, h1, h2⟩ := c.inc n hn
        refine ⟨xs, h1, h2.congr (fun _ _ => rfl) ?_⟩
        intro x hx
        exact upd_other _ _ (hne x (List.mem_filter.1 (h1.mem_iff.1 hx)).1)
    have hat := h.eattr e hv
    obtain ⟨s1, h1, c2⟩ := Core.connect (e := e) c1 hnotin (h.eLt e hv) (fun hh => h.disj e hh hv)
      ⟨hat.1, hat.2.1, by simp⟩ (h.eprops e hv) (h.ends e hv)
    exact ⟨s1, h1⟩

theorem Mono.lists {s : State} (hm : Mono s.nptr s.allNodes s.idBase) : s.getNodes ≠ none := by
  obtain ⟨ns, hns, _⟩ := hm.getNodes
  rw [hns]; simp

/-- The operations that look at the edges of the whole graph. -/
def State.NeedsEdges (s : State) : Op → Prop
  | .newEdge _ _ _ _ => True
  | .addEdgeIndex k _ => AMap.get s.edgeIx k = none
  | _ => False

/-- One valid operation, on values that suit the indexes, returns, if `GetEdges` can be run when it needs it. -/
theorem step_total {Pn Pe : String → Value → Prop} {s : State} {σ : Spec} {op : Op} (c : Core s σ)
    (h : s.NeedsEdges op → s.getEdges ≠ none) (hm : ∀ k t, op = .addNodeIndex k t → s.getNodes ≠ none) (hx : SafeIx Pn Pe s)
    (hv : σ.Valid op) (hpn : ∀ k v, (k, v) ∈ op.nodeVals → Pn k v) (hpe : ∀ k v, (k, v) ∈ op.edgeVals → Pe k v)
    (hin : ∀ k t, op = .addNodeIndex k t → Indexable (Pn k) t)
    (hie : ∀ k t, op = .addEdgeIndex k t → Indexable (Pe k) t) :
    ∃ s', LPG.step s op = some s' ∧ SafeIx Pn Pe s' := by
  have newSafe : ∀ (P : Value → Prop) t, Indexable P t → (Index.new t).Safe P := by
    intro P t ht
    cases t
    · exact ⟨ht, by simp⟩
    · exact ht
  cases op with
  | newNode ls ps =>
    obtain ⟨ixs, h1, h2⟩ := hx.nix.addAll (id := s.idBase) (ps := ps) hpn
    have hs : ∃ s', s.newNode (newStringSet ls) ps = some s' := by
      unfold State.newNode; simp only; rw [h1]; exact ⟨_, rfl⟩
    obtain ⟨s', hs'⟩ := hs
    refine ⟨s', hs', ?_⟩
    obtain ⟨ixs', h3, rfl⟩ := newNode_frame hs'
    rw [h1] at h3; cases h3
    refine ⟨?_, hx.evals, h2, hx.eix⟩
    intro n k v hmem
    simp only [upd_apply] at hmem
    split at hmem
    · exact hpn k v hmem
    · exact hx.nvals n k v hmem
  | newEdge a b l ps =>
    obtain ⟨s', hs'⟩ := c.newEdge_total (h trivial) hx.eix hv hpe
    refine ⟨s', hs', ?_⟩
    obtain ⟨_, _, _, _, g5, _, g7, g8, _, _, _, hix⟩ := newEdge_frame hs'
    obtain ⟨ixs, h1, h2⟩ := hx.eix.addAll (id := s.idBase) (ps := ps) hpe
    rw [h1] at hix; cases hix
    refine ⟨by rw [g5]; exact hx.nvals, ?_, by rw [g7]; exact hx.nix, h2⟩
    intro n k v hmem
    rw [g8] at hmem
    simp only [upd_apply] at hmem
    split at hmem
    · exact hpe k v hmem
    · exact hx.evals n k v hmem
  | setLabels n ls => exact ⟨_, rfl, hx.nvals, hx.evals, hx.nix, hx.eix⟩
  | setNodeProp n k v =>
    have h1 : ∃ ixs, (match (s.nProps n).get k with
        | none => some s.nodeIx
        | some old => Indexes.remove s.nodeIx k old n) = some ixs ∧ AllSafe Pn ixs := by
      split
      · exact ⟨_, rfl, hx.nix⟩
      · rename_i old hg
        exact hx.nix.remove (hx.nvals n k old (AMap.mem_of_get hg)) n
    obtain ⟨ixs, h1, h2⟩ := h1
    have hkv : Pn k v := hpn k v (by simp [Op.nodeVals])
    obtain ⟨ixs', h3, h4⟩ := h2.add hkv n
    refine ⟨{ s with nProps := upd s.nProps n ((s.nProps n).set k v), nodeIx := ixs' }, ?_, ?_, hx.evals, h4, hx.eix⟩
    · simp only [LPG.step, State.setNodeProp]
      revert h1
      cases AMap.get (s.nProps n) k <;> simp only <;> intro h1 <;>
        first | (cases h1; simp only [h3]; done) | (rw [h1]; simp only [h3]; done)
    · intro m k' v' hmem
      simp only [upd_apply] at hmem
      split at hmem
      · rename_i e
        rcases AMap.mem_set hmem with e' | hmem
        · cases e'; exact hkv
        · exact hx.nvals n k' v' hmem
      · exact hx.nvals m k' v' hmem
  | removeNodeProp n k =>
    cases hg : AMap.get (s.nProps n) k with
    | none => exact ⟨s, by simp [LPG.step, State.removeNodeProp, hg], hx⟩
    | some old =>
      obtain ⟨ixs, h1, h2⟩ := hx.nix.remove (hx.nvals n k old (AMap.mem_of_get hg)) n
      refine ⟨{ s with nProps := upd s.nProps n ((s.nProps n).del k), nodeIx := ixs }, ?_, ?_, hx.evals, h2, hx.eix⟩
      · simp only [LPG.step, State.removeNodeProp, hg, h1]
      · intro m k' v' hmem
        simp only [upd_apply] at hmem
        split at hmem
        · exact hx.nvals n k' v' (AMap.mem_del hmem)
        · exact hx.nvals m k' v' hmem
  | detach n => exact hx.detach c hv
  | detachRemove n =>
    obtain ⟨s1, h1, x1⟩ := hx.detach c (n := n) hv
    obtain ⟨ixs, h2, h3⟩ := x1.nix.removeAll (id := n) (x1.nvals n)
    refine ⟨{ s1 with nptr := (s1.allNodes.remove s1.nptr n).1, allNodes := (s1.allNodes.remove s1.nptr n).2,
                      byLabel := s1.byLabel.remove n (s1.nLabels n), nodeIx := ixs }, ?_,
      ⟨x1.nvals, x1.evals, h3, x1.eix⟩⟩
    simp only [LPG.step, State.detachRemoveNode, h1, h2]
  | setEdgeLabel e l =>
    obtain ⟨s', hs'⟩ := c.setEdgeLabel_total (e := e) hv l
    refine ⟨s', hs', ?_⟩
    simp only [State.setEdgeLabel] at hs'
    split at hs'
    · cases hs'; exact hx
    · obtain ⟨p1, p2, im, om, rfl⟩ := connect_frame hs'
      exact ⟨hx.nvals, hx.evals, hx.nix, hx.eix⟩
  | setEdgeProp n k v =>
    have h1 : ∃ ixs, (match (s.eProps n).get k with
        | none => some s.edgeIx
        | some old => Indexes.remove s.edgeIx k old n) = some ixs ∧ AllSafe Pe ixs := by
      split
      · exact ⟨_, rfl, hx.eix⟩
      · rename_i old hg
        exact hx.eix.remove (hx.evals n k old (AMap.mem_of_get hg)) n
    obtain ⟨ixs, h1, h2⟩ := h1
    have hkv : Pe k v := hpe k v (by simp [Op.edgeVals])
    obtain ⟨ixs', h3, h4⟩ := h2.add hkv n
    refine ⟨{ s with eProps := upd s.eProps n ((s.eProps n).set k v), edgeIx := ixs' }, ?_, hx.nvals, ?_, hx.nix, h4⟩
    · simp only [LPG.step, State.setEdgeProp]
      revert h1
      cases AMap.get (s.eProps n) k <;> simp only <;> intro h1 <;>
        first | (cases h1; simp only [h3]; done) | (rw [h1]; simp only [h3]; done)
    · intro m k' v' hmem
      simp only [upd_apply] at hmem
      split at hmem
      · rename_i e
        rcases AMap.mem_set hmem with e' | hmem
        · cases e'; exact hkv
        · exact hx.evals n k' v' hmem
      · exact hx.evals m k' v' hmem
  | removeEdgeProp n k =>
    cases hg : AMap.get (s.eProps n) k with
    | none => exact ⟨s, by simp [LPG.step, State.removeEdgeProp, hg], hx⟩
    | some old =>
      obtain ⟨ixs, h1, h2⟩ := hx.eix.remove (hx.evals n k old (AMap.mem_of_get hg)) n
      refine ⟨{ s with eProps := upd s.eProps n ((s.eProps n).del k), edgeIx := ixs }, ?_, hx.nvals, ?_, hx.nix, h2⟩
      · simp only [LPG.step, State.removeEdgeProp, hg, h1]
      · intro m k' v' hmem
        simp only [upd_apply] at hmem
        split at hmem
        · exact hx.evals n k' v' (AMap.mem_del hmem)
        · exact hx.evals m k' v' hmem
  | removeEdge e => exact ⟨_, rfl, hx.nvals, hx.evals, hx.nix, hx.eix⟩
  | addNodeIndex k t =>
    obtain ⟨ns, hns⟩ := Option.ne_none_iff_exists'.1 (hm k t rfl)
    cases hg : AMap.get s.nodeIx k with
    | some ix => exact ⟨s, by simp [LPG.step, State.addNodeIndex, hg], hx⟩
    | none =>
      obtain ⟨ix, h1, h2⟩ := addObjects_total (fun n v hh => hx.nvals n k v hh) ns (newSafe _ t (hin k t rfl))
      refine ⟨{ s with nodeIx := AMap.set s.nodeIx k ix }, ?_, hx.nvals, hx.evals, ?_, hx.eix⟩
      · simp only [LPG.step, State.addNodeIndex, hg, hns, h1]
      · intro k' jx hk
        rw [AMap.get_set] at hk
        split at hk
        · rename_i e; cases hk; subst e; exact h2
        · exact hx.nix k' jx hk
  | addEdgeIndex k t =>
    cases hg : AMap.get s.edgeIx k with
    | some ix => exact ⟨s, by simp [LPG.step, State.addEdgeIndex, hg], hx⟩
    | none =>
      obtain ⟨es, hes⟩ := Option.ne_none_iff_exists'.1 (h hg)
      obtain ⟨ix, h1, h2⟩ := addObjects_total (fun n v hh => hx.evals n k v hh) es (newSafe _ t (hie k t rfl))
      refine ⟨{ s with edgeIx := AMap.set s.edgeIx k ix }, ?_, hx.nvals, hx.evals, hx.nix, ?_⟩
      · simp only [LPG.step, State.addEdgeIndex, hg, hes, h1]
      · intro k' jx hk
        rw [AMap.get_set] at hk
        split at hk
        · rename_i e; cases hk; subst e; exact h2
        · exact hx.eix k' jx hk

theorem runFrom_total {Pn Pe : String → Value → Prop} {ops : List Op} : ∀ {s : State} {σ : Spec} {g : Nat → String},
    Core s σ → AEx g s σ → Mono s.nptr s.allNodes s.idBase → SafeIx Pn Pe s →
    σ.ValidFrom ops → σ.FiledOkFrom g ops →
    (∀ op ∈ ops, ∀ k v, (k, v) ∈ op.nodeVals → Pn k v) → (∀ op ∈ ops, ∀ k v, (k, v) ∈ op.edgeVals → Pe k v) →
    (∀ k t, Op.addNodeIndex k t ∈ ops → Indexable (Pn k) t) → (∀ k t, Op.addEdgeIndex k t ∈ ops → Indexable (Pe k) t) →
    ∃ s', LPG.runFrom s ops = some s' ∧ SafeIx Pn Pe s' := by
  induction ops with
  | nil => intro s σ g _ _ _ hx _ _ _ _ _ _; exact ⟨s, rfl, hx⟩
  | cons op ops ih =>
    intro s σ g c h hm hx hv hd h1 h2 h3 h4
    obtain ⟨s1, hs1, hx1⟩ := step_total c (fun _ => by obtain ⟨es, hes, _⟩ := h.rep.getEdges c; rw [hes]; simp) (fun _ _ _ => hm.lists) hx hv.1 (h1 op (by simp)) (h2 op (by simp))
      (fun k t e => h3 k t (by simp [e])) (fun k t e => h4 k t (by simp [e]))
    obtain ⟨s2, hs2, hx2⟩ := ih (c.step hv.1 hs1) (h.step c hv.1 hs1 hd.1)
      (hm.step c hv.1 hs1) hx1 hv.2 hd.2
      (fun o ho => h1 o (List.mem_cons_of_mem _ ho)) (fun o ho => h2 o (List.mem_cons_of_mem _ ho))
      (fun k t ho => h3 k t (List.mem_cons_of_mem _ ho)) (fun k t ho => h4 k t (List.mem_cons_of_mem _ ho))
    exact ⟨s2, by rw [LPG.runFrom, hs1]; exact hs2, hx2⟩

/-- An operation that needs the edges of the graph fails if `GetEdges` cannot be run. -/
theorem step_needs {s : State} {op : Op} (hm : s.AllMono) (h : s.NeedsEdges op) (he : s.getEdges = none) :
    LPG.step s op = none := by
  cases op with
  | newEdge a b l ps =>
    have h1 : s.allEdges.n = 1 := by
      rcases Classical.em (s.allEdges.n = 1) with h1 | h1
      · exact h1
      · obtain ⟨es, hes, _⟩ := EMono.enum hm h1
        rw [State.getEdges, hes] at he
        cases he
    have h2 : s.allEdges.only = none := by
      cases ho : s.allEdges.only with
      | none => rfl
      | some o =>
        rw [State.getEdges, EdgeMap.enum, if_neg (by rw [h1]; decide), if_pos h1, ho] at he
        cases he
    have h3 : (s.allocEdge a b l ps).allEdges.add (s.allocEdge a b l ps).slot0 (s.allocEdge a b l ps).eLabel s.idBase =
        none := by
      show s.allEdges.add _ _ _ = none
      rw [EdgeMap.add, if_neg (by rw [h1]; decide), if_pos h1, h2]
    show s.newEdge a b l ps = none
    rw [newEdge_eq, h3]
  | addEdgeIndex k t => simp only [LPG.step, State.addEdgeIndex, show AMap.get s.edgeIx k = none from h, he]
  | _ => exact h.elim

/-- `GetEdges` can be run unless it would yield a nil edge. -/
theorem getEdges_iff {s : State} (h : s.AllMono) : s.getEdges ≠ none ↔ (s.allEdges.n = 1 → s.allEdges.only ≠ none) := by
  by_cases h1 : s.allEdges.n = 1
  · rw [State.getEdges, EdgeMap.enum, if_neg (by rw [h1]; decide), if_pos h1]
    cases s.allEdges.only <;> simp [h1]
  · obtain ⟨es, hes, _⟩ := EMono.enum h h1
    rw [State.getEdges, hes]
    simp [h1]

theorem getEdges_grow {s s' : State} {op : Op} (h : s.AllMono)
    (hop : (∃ ls ps, op = .newNode ls ps) ∨ ∃ a b lb ps, op = .newEdge a b lb ps) (hs : LPG.step s op = some s')
    (hg : s.getEdges ≠ none) : s'.getEdges ≠ none := by
  have h' := EMono.step h hs
  rw [getEdges_iff h']
  rcases hop with ⟨ls, ps, rfl⟩ | ⟨a, b, lb, ps, rfl⟩
  · obtain ⟨ixs, _, rfl⟩ := newNode_frame hs
    exact (getEdges_iff h).1 hg
  · have hs : s.newEdge a b lb ps = some s' := hs
    rw [newEdge_eq] at hs
    split at hs
    · cases hs
    · rename_i p0 m ha
      split at hs
      · cases hs
      · rename_i s1 hc
        split at hs
        · cases hs
        · cases hs
          have hm : s1.allEdges = m := by
            obtain ⟨_, _, _, _, rfl⟩ := connect_frame hc
            rfl
          show s1.allEdges.n = 1 → s1.allEdges.only ≠ none
          rw [hm]
          unfold EdgeMap.add at ha
          split at ha
          · cases ha; simp
          · split at ha
            · split at ha
              · cases ha
              · cases ha; simp
            · rename_i h0 h1
              cases ha
              intro hn
              have hn' : (s.allocEdge a b lb ps).allEdges.n + 1 = 1 := hn
              omega

/-- The values in the graph and its indexes, after any history of valid operations that returned. -/
theorem SafeIx.runFrom {Pn Pe : String → Value → Prop} {ops : List Op} : ∀ {s s' : State} {σ : Spec},
    Core s σ → s.AllMono → Mono s.nptr s.allNodes s.idBase → SafeIx Pn Pe s →
    σ.ValidFrom ops → LPG.runFrom s ops = some s' →
    (∀ op ∈ ops, ∀ k v, (k, v) ∈ op.nodeVals → Pn k v) → (∀ op ∈ ops, ∀ k v, (k, v) ∈ op.edgeVals → Pe k v) →
    (∀ k t, Op.addNodeIndex k t ∈ ops → Indexable (Pn k) t) → (∀ k t, Op.addEdgeIndex k t ∈ ops → Indexable (Pe k) t) →
    SafeIx Pn Pe s' := by
  induction ops with
  | nil => intro s s' σ _ _ _ hx _ hs _ _ _ _; cases hs; exact hx
  | cons op ops ih =>
    intro s s' σ c he hm hx hv hs h1 h2 h3 h4
    rw [LPG.runFrom] at hs
    cases hs1 : LPG.step s op with
    | none => rw [hs1] at hs; cases hs
    | some s1 =>
      rw [hs1] at hs
      obtain ⟨s2, hs2, hx2⟩ := step_total c (fun hn hg => by rw [step_needs he hn hg] at hs1; cases hs1) (fun _ _ _ => hm.lists) hx hv.1
        (h1 op (by simp)) (h2 op (by simp)) (fun k t e => h3 k t (by simp [e])) (fun k t e => h4 k t (by simp [e]))
      rw [hs1] at hs2
      cases hs2
      exact ih (c.step hv.1 hs1) (he.step hs1) (hm.step c hv.1 hs1) hx2 hv.2 hs
        (fun o ho => h1 o (List.mem_cons_of_mem _ ho)) (fun o ho => h2 o (List.mem_cons_of_mem _ ho))
        (fun k t ho => h3 k t (List.mem_cons_of_mem _ ho)) (fun k t ho => h4 k t (List.mem_cons_of_mem _ ho))

/-- The values in the graph, after one operation that returned. -/
theorem step_vals {Pn Pe : String → Value → Prop} {s s' : State} {op : Op} (hs : LPG.step s op = some s')
    (hn : ∀ n k v, (k, v) ∈ s.nProps n → Pn k v) (he : ∀ e k v, (k, v) ∈ s.eProps e → Pe k v)
    (hpn : ∀ k v, (k, v) ∈ op.nodeVals → Pn k v) (hpe : ∀ k v, (k, v) ∈ op.edgeVals → Pe k v) :
    (∀ n k v, (k, v) ∈ s'.nProps n → Pn k v) ∧ ∀ e k v, (k, v) ∈ s'.eProps e → Pe k v := by
  have up : ∀ {P : String → Value → Prop} {f : Nat → Props} {n : Nat} {ps : Props}, (∀ n k v, (k, v) ∈ f n → P k v) →
      (∀ k v, (k, v) ∈ ps → P k v) → ∀ m k v, (k, v) ∈ upd f n ps m → P k v := by
    intro P f n ps h1 h2 m k v hm
    rw [upd_apply] at hm
    split at hm
    · exact h2 k v hm
    · exact h1 m k v hm
  have set : ∀ {P : String → Value → Prop} {ps : Props} {k : String} {v : Value}, (∀ k v, (k, v) ∈ ps → P k v) → P k v →
      ∀ k' v', (k', v') ∈ AMap.set ps k v → P k' v' := by
    intro P ps k v h1 h2 k' v' hm
    rcases AMap.mem_set hm with e | hm
    · cases e; exact h2
    · exact h1 k' v' hm
  cases op with
  | newNode ls ps => obtain ⟨_, _, rfl⟩ := newNode_frame hs; exact ⟨up hn hpn, he⟩
  | newEdge a b l ps =>
    obtain ⟨_, _, _, _, g5, _, _, g8, _, _, _, _⟩ := newEdge_frame hs
    rw [g5, g8]
    exact ⟨hn, up he hpe⟩
  | setLabels n ls => cases hs; exact ⟨hn, he⟩
  | setNodeProp n k v => obtain ⟨_, rfl⟩ := setNodeProp_frame hs; exact ⟨up hn (set (hn n) (hpn k v (by simp [Op.nodeVals]))), he⟩
  | removeNodeProp n k =>
    obtain ⟨_, rfl⟩ := removeNodeProp_frame hs
    exact ⟨up hn (fun k v h => hn n k v (AMap.mem_del h)), he⟩
  | detach n => obtain ⟨_, _, _, _, _, _, _, rfl⟩ := detachNode_frame hs; exact ⟨hn, he⟩
  | detachRemove n =>
    simp only [LPG.step, State.detachRemoveNode] at hs
    split at hs
    · cases hs
    · rename_i s1 h1
      obtain ⟨_, _, _, _, _, _, _, rfl⟩ := detachNode_frame h1
      split at hs
      · cases hs
      · cases hs; exact ⟨hn, he⟩
  | setEdgeLabel e l =>
    simp only [LPG.step, State.setEdgeLabel] at hs
    split at hs
    · cases hs; exact ⟨hn, he⟩
    · obtain ⟨_, _, _, _, rfl⟩ := connect_frame hs; exact ⟨hn, he⟩
  | setEdgeProp n k v => obtain ⟨_, rfl⟩ := setEdgeProp_frame hs; exact ⟨hn, up he (set (he n) (hpe k v (by simp [Op.edgeVals])))⟩
  | removeEdgeProp n k =>
    obtain ⟨_, rfl⟩ := removeEdgeProp_frame hs
    exact ⟨hn, up he (fun k v h => he n k v (AMap.mem_del h))⟩
  | removeEdge e => cases hs; exact ⟨hn, he⟩
  | addNodeIndex k t => obtain ⟨_, rfl⟩ := addNodeIndex_frame hs; exact ⟨hn, he⟩
  | addEdgeIndex k t => obtain ⟨_, rfl⟩ := addEdgeIndex_frame hs; exact ⟨hn, he⟩

/-! ## The type of an index -/

def Index.kind : Index → IndexType
  | .btree _ => .btree
  | .hash _ => .hash

theorem Index.add_kind {ix ix' : Index} {v : Value} {id : Nat} (h : ix.add v id = some ix') : ix'.kind = ix.kind := by
  cases ix <;> simp only [Index.add, Option.map_eq_some_iff] at h <;> obtain ⟨_, _, rfl⟩ := h <;> rfl

theorem Index.remove_kind {ix ix' : Index} {v : Value} {id : Nat} (h : ix.remove v id = some ix') :
    ix'.kind = ix.kind := by
  cases ix <;> simp only [Index.remove, Option.map_eq_some_iff] at h <;> obtain ⟨_, _, rfl⟩ := h <;> rfl

theorem addObjects_kind {key : String} {props : Nat → Props} : ∀ {xs : List Nat} {ix ix' : Index},
    Index.addObjects key props xs ix = some ix' → ix'.kind = ix.kind
  | [], ix, ix', h => by simp [Index.addObjects] at h; rw [h]
  | x :: xs, ix, ix', h => by
    rw [Index.addObjects] at h
    split at h
    · exact addObjects_kind h
    · split at h
      · cases h
      · rename_i i1 h1
        rw [addObjects_kind h, Index.add_kind h1]

/-- the type of the index of a key -/
def Indexes.kind (ixs : Indexes) (k : String) : Option IndexType := (AMap.get ixs k).map Index.kind

theorem Indexes.add_kind {ixs ixs' : Indexes} {key : String} {v : Value} {id : Nat}
    (h : Indexes.add ixs key v id = some ixs') (k : String) : ixs'.kind k = ixs.kind k := by
  unfold Indexes.add at h
  split at h
  · cases h; rfl
  · rename_i ix hg
    simp only [Option.map_eq_some_iff] at h
    obtain ⟨ix', ha, rfl⟩ := h
    simp only [Indexes.kind]
    rw [AMap.get_set]
    split
    · rename_i hk; rw [hk, hg]; simp [Index.add_kind ha]
    · rfl

theorem Indexes.remove_kind {ixs ixs' : Indexes} {key : String} {v : Value} {id : Nat}
    (h : Indexes.remove ixs key v id = some ixs') (k : String) : ixs'.kind k = ixs.kind k := by
  unfold Indexes.remove at h
  split at h
  · cases h; rfl
  · rename_i ix hg
    simp only [Option.map_eq_some_iff] at h
    obtain ⟨ix', ha, rfl⟩ := h
    simp only [Indexes.kind]
    rw [AMap.get_set]
    split
    · rename_i hk; rw [hk, hg]; simp [Index.remove_kind ha]
    · rfl

theorem Indexes.addAll_kind {id : Nat} : ∀ {ps : Props} {ixs ixs' : Indexes},
    Indexes.addAll id ps ixs = some ixs' → ∀ k, ixs'.kind k = ixs.kind k
  | [], _, _, h, k => by cases h; rfl
  | (k0, v0) :: ps, ixs, ixs', h, k => by
    rw [Indexes.addAll] at h
    split at h
    · cases h
    · rename_i ixs1 h1
      rw [Indexes.addAll_kind h k, Indexes.add_kind h1 k]

theorem Indexes.removeAll_kind {id : Nat} : ∀ {ps : Props} {ixs ixs' : Indexes},
    Indexes.removeAll id ps ixs = some ixs' → ∀ k, ixs'.kind k = ixs.kind k
  | [], _, _, h, k => by cases h; rfl
  | (k0, v0) :: ps, ixs, ixs', h, k => by
    rw [Indexes.removeAll] at h
    split at h
    · cases h
    · rename_i ixs1 h1
      rw [Indexes.removeAll_kind h k, Indexes.remove_kind h1 k]

theorem nodeIx_kind {s s' : State} {op : Op} (hs : LPG.step s op = some s') (k : String) :
    s'.nodeIx.kind k = s.nodeIx.kind k ∨ ∃ t, op = .addNodeIndex k t ∧ s'.nodeIx.kind k = some t := by
  cases op with
  | newNode ls ps =>
    obtain ⟨ixs, hix, rfl⟩ := newNode_frame hs
    exact Or.inl (Indexes.addAll_kind hix k)
  | newEdge a b l ps =>
    obtain ⟨_, _, _, _, _, _, h7, _⟩ := newEdge_frame hs
    rw [h7]; exact Or.inl rfl
  | setLabels n ls => cases hs; exact Or.inl rfl
  | setNodeProp n k' v =>
    simp only [LPG.step, State.setNodeProp] at hs
    split at hs
    · cases hs
    · rename_i ixs1 h1
      split at hs
      · cases hs
      · rename_i ixs2 h2
        cases hs
        left
        refine (Indexes.add_kind h2 k).trans ?_
        split at h1
        · cases h1; rfl
        · exact Indexes.remove_kind h1 k
  | removeNodeProp n k' =>
    simp only [LPG.step, State.removeNodeProp] at hs
    split at hs
    · cases hs; exact Or.inl rfl
    · split at hs
      · cases hs
      · rename_i ixs1 h1
        cases hs
        exact Or.inl (Indexes.remove_kind h1 k)
  | detach n =>
    obtain ⟨p0, p1, p2, im, om, ae, ix, rfl⟩ := detachNode_frame hs
    exact Or.inl rfl
  | detachRemove n =>
    simp only [LPG.step, State.detachRemoveNode] at hs
    split at hs
    · cases hs
    · rename_i s1 h1
      obtain ⟨p0, p1, p2, im, om, ae, ix, rfl⟩ := detachNode_frame h1
      split at hs
      · cases hs
      · rename_i ixs h2
        cases hs
        exact Or.inl (Indexes.removeAll_kind h2 k)
  | setEdgeLabel e l =>
    simp only [LPG.step, State.setEdgeLabel] at hs
    split at hs
    · cases hs; exact Or.inl rfl
    · obtain ⟨p1, p2, im, om, rfl⟩ := connect_frame hs
      exact Or.inl rfl
  | setEdgeProp n k v => obtain ⟨ixs, rfl⟩ := setEdgeProp_frame hs; exact Or.inl rfl
  | removeEdgeProp n k => obtain ⟨ixs, rfl⟩ := removeEdgeProp_frame hs; exact Or.inl rfl
  | removeEdge e => cases hs; exact Or.inl rfl
  | addNodeIndex k' t =>
    simp only [LPG.step, State.addNodeIndex] at hs
    split at hs
    · cases hs; exact Or.inl rfl
    · split at hs
      · cases hs
      · split at hs
        · cases hs
        · rename_i ix hix
          cases hs
          simp only [Indexes.kind]
          rw [AMap.get_set]
          split
          · rename_i e
            right
            refine ⟨t, by rw [e], ?_⟩
            simp only [Option.map_some, addObjects_kind hix]
            cases t <;> rfl
          · exact Or.inl rfl
  | addEdgeIndex k t => obtain ⟨ixs, rfl⟩ := addEdgeIndex_frame hs; exact Or.inl rfl

theorem nodeIx_kind_run {ops : List Op} {k : String} {t : IndexType} : ∀ {s s' : State}, LPG.runFrom s ops = some s' →
    s'.nodeIx.kind k = some t → s.nodeIx.kind k = some t ∨ Op.addNodeIndex k t ∈ ops := by
  induction ops with
  | nil => intro s s' hs h; simp [LPG.runFrom] at hs; subst hs; exact Or.inl h
  | cons op ops ih =>
    intro s s' hs h
    rw [LPG.runFrom] at hs
    split at hs
    · cases hs
    · rename_i s1 h1
      rcases ih hs h with h' | h'
      · rcases nodeIx_kind h1 k with h2 | ⟨t', rfl, h2⟩
        · exact Or.inl (by rw [← h2]; exact h')
        · rw [h2] at h'; cases h'; exact Or.inr List.mem_cons_self
      · exact Or.inr (List.mem_cons_of_mem _ h')

/-- Values filed in a tree of comparable keys come in increasing order. -/
theorem BRep.ordered {t : SetTree} {val : Nat → Option Value} {P : Value → Prop} (h : BRep t val)
    (hs : Index.Safe P (.btree t)) (hval : ∀ id v, val id = some v → P v) :
    (SetTree.valueItr t).Pairwise (fun a b => ∃ v w r, val a = some v ∧ val b = some w ∧ cmp v w = some r ∧ r ≤ 0) := by
  have like : ∀ v k, P v → P k → Like v k → cmp v k = some 0 := fun v k hv hk hl => hl.defined (hs.1 v k hv hk)
  have defd : ∀ v w, P v → P w → ∃ r, cmp v w = some r := fun v w hv hw => Option.ne_none_iff_exists'.1 (hs.1 v w hv hw)
  unfold SetTree.valueItr
  rw [List.pairwise_flatten]
  constructor
  · intro l hl
    obtain ⟨e, he, rfl⟩ := List.mem_map.1 hl
    rw [(h.ok e he).1.items]
    refine (List.pairwise_of_forall (R := fun _ _ => True) (fun _ _ => trivial)).imp_of_mem ?_
    intro a b ha hb _
    obtain ⟨v, hv, l1⟩ := h.sound e he a ha
    obtain ⟨w, hw, l2⟩ := h.sound e he b hb
    obtain ⟨r, hr⟩ := defd v w (hval a v hv) (hval b w hw)
    have h1 := like v e.1 (hval a v hv) (hs.2 e he) l1
    have h2 := cmp_zero_symm (like w e.1 (hval b w hw) (hs.2 e he) l2)
    have := cmp_trans h1 h2 hr (by omega) (by omega)
    exact ⟨v, w, r, hv, hw, hr, by omega⟩
  · rw [List.pairwise_map]
    refine h.sorted.imp_of_mem ?_
    intro e f he hf hlt a ha b hb
    rw [(h.ok e he).1.items] at ha
    rw [(h.ok f hf).1.items] at hb
    obtain ⟨v, hv, l1⟩ := h.sound e he a ha
    obtain ⟨w, hw, l2⟩ := h.sound f hf b hb
    obtain ⟨r, hr⟩ := defd v w (hval a v hv) (hval b w hw)
    obtain ⟨q, hq⟩ := defd v f.1 (hval a v hv) (hs.2 f hf)
    have h1 := like v e.1 (hval a v hv) (hs.2 e he) l1
    have h2 := cmp_zero_symm (like w f.1 (hval b w hw) (hs.2 f hf) l2)
    have h3 := cmp_trans h1 hlt hq (by omega) (by omega)
    have h4 := cmp_trans hq h2 hr (by omega) (by omega)
    exact ⟨v, w, r, hv, hw, hr, by omega⟩

end LPG
