import Verif.Proofs.PatternPath
import Verif.Props.C13Exact
/-!
# The element at which a search starts
-/
namespace LPG
namespace Pat
open VPath

theorem fastest_spec {s : State} {symbols : Symbols} {all : Pattern} : ∀ {ps : List Item} {i : Nat}
    {best : Option (Option (List Nat) × Int × Nat)} {itr : Option (List Nat)} {sz : Int} {k : Nat},
    (∀ j, j < ps.length → itemAt all (i + j) = ps.getD j {}) →
    fastest s symbols ps i best = some (some (itr, sz, k)) →
    best = some (itr, sz, k) ∨ (i ≤ k ∧ k < i + ps.length ∧
      (if k % 2 = 0 then (itemAt all k).estimateNodeSize s symbols else (itemAt all k).estimateEdgeSize s symbols) =
        some (itr, sz) ∧ sz ≠ -1)
  | [], i, best, itr, sz, k, _, h => by
    simp only [fastest, Option.some.injEq] at h
    exact Or.inl h
  | q :: ps, i, best, itr, sz, k, hall, h => by
    have hq : itemAt all i = q := by simpa using hall 0 (by simp)
    have hrest : ∀ j, j < ps.length → itemAt all (i + 1 + j) = ps.getD j {} := by
      intro j hj
      have := hall (j + 1) (by simp; omega)
      rw [show i + 1 + j = i + (j + 1) by omega, this]
      simp
    have wid : (i + 1 ≤ k ∧ k < i + 1 + ps.length ∧
      (if k % 2 = 0 then (itemAt all k).estimateNodeSize s symbols else (itemAt all k).estimateEdgeSize s symbols) =
        some (itr, sz) ∧ sz ≠ -1) → (i ≤ k ∧ k < i + (q :: ps).length ∧
      (if k % 2 = 0 then (itemAt all k).estimateNodeSize s symbols else (itemAt all k).estimateEdgeSize s symbols) =
        some (itr, sz) ∧ sz ≠ -1) := by
      rintro ⟨a, b, c⟩
      exact ⟨by omega, by simp only [List.length_cons]; omega, c⟩
    rw [fastest] at h
    cases he : (if i % 2 = 0 then q.estimateNodeSize s symbols else q.estimateEdgeSize s symbols) with
    | none => rw [he] at h; cases h
    | some o =>
      obtain ⟨itr', sz'⟩ := o
      rw [he] at h
      simp only at h
      by_cases hsz : sz' = -1
      · rw [if_neg (by simp [hsz])] at h
        rcases fastest_spec hrest h with h' | h'
        · exact Or.inl h'
        · exact Or.inr (wid h')
      · rw [if_pos hsz] at h
        have here : (itr', sz', i) = (itr, sz, k) → (i ≤ k ∧ k < i + (q :: ps).length ∧
          (if k % 2 = 0 then (itemAt all k).estimateNodeSize s symbols else (itemAt all k).estimateEdgeSize s symbols) =
            some (itr, sz) ∧ sz ≠ -1) := by
          intro heq
          cases heq
          exact ⟨Nat.le_refl _, by simp, by rw [hq]; exact he, hsz⟩
        cases best with
        | none =>
          simp only at h
          rcases fastest_spec hrest h with h' | h'
          · exact Or.inr (here (by simpa using h'))
          · exact Or.inr (wid h')
        | some b =>
          simp only at h
          rcases fastest_spec hrest h with h' | h'
          · split at h'
            · exact Or.inr (here (by simpa using h'))
            · exact Or.inl h'
          · exact Or.inr (wid h')

theorem getFastest_spec {s : State} {symbols : Symbols} {p : Pattern} {itr : Option (List Nat)} {index : Nat}
    (h : getFastestElement s symbols p = some (itr, index)) : index < p.length ∧ ∃ sz,
      (if index % 2 = 0 then (itemAt p index).estimateNodeSize s symbols else (itemAt p index).estimateEdgeSize s symbols) =
        some (itr, sz) ∧ sz ≠ -1 := by
  unfold getFastestElement at h
  split at h
  · rename_i itr' sz i hf
    cases h
    rcases fastest_spec (all := p) (i := 0) (fun j hj => by simp [itemAt]) hf with h' | ⟨_, a, b, c⟩
    · cases h'
    · exact ⟨by omega, sz, b, c⟩
  · cases h

/-- An item for a number of edges that is not fixed to one or zero: no search starts there. -/
def Several (q : Item) : Prop := q.min > 1 ∨ q.max > 1 ∨ q.min = -1 ∨ q.max = -1

instance (q : Item) : Decidable (Several q) := by unfold Several; infer_instance

theorem chosen_single {s : State} {symbols : Symbols} {p : Pattern} {itr : Option (List Nat)} {index : Nat}
    (h : getFastestElement s symbols p = some (itr, index)) (ho : index % 2 = 1) : ¬ Several (itemAt p index) := by
  obtain ⟨_, sz, h1, h2⟩ := getFastest_spec h
  rw [if_neg (by omega)] at h1
  unfold Item.estimateEdgeSize at h1
  intro hs
  unfold Several at hs
  rw [if_pos hs] at h1
  cases h1
  exact h2 rfl

theorem pickSmaller_mem : ∀ {its : List (List Nat × Int)} {best : Best} {o : Option (List Nat) × Int},
    pickSmaller its best = some o → best = some o ∨ ∃ r ∈ its, o = (some r.1, r.2)
  | [], best, o, h => Or.inl h
  | r :: rs, best, o, h => by
    have lift : (∃ r' ∈ rs, o = (some r'.1, r'.2)) → ∃ r' ∈ r :: rs, o = (some r'.1, r'.2) := by
      rintro ⟨r', a, b⟩; exact ⟨r', by simp [a], b⟩
    cases best with
    | none =>
      simp only [pickSmaller] at h
      split at h
      · exact (pickSmaller_mem h).imp id lift
      · rcases pickSmaller_mem h with h | h
        · cases h; exact Or.inr ⟨r, by simp, rfl⟩
        · exact Or.inr (lift h)
    | some b =>
      simp only [pickSmaller] at h
      split at h
      · exact (pickSmaller_mem h).imp id lift
      · rcases pickSmaller_mem h with h | h
        · split at h
          · cases h; exact Or.inr ⟨r, by simp, rfl⟩
          · exact Or.inl h
        · exact Or.inr (lift h)

theorem pickSmallerEdges_mem : ∀ {its : List (List Nat × Int)} {best : Best} {o : Option (List Nat) × Int},
    pickSmallerEdges its best = some o → best = some o ∨ ∃ r ∈ its, o = (some r.1, r.2)
  | [], best, o, h => Or.inl h
  | r :: rs, best, o, h => by
    have lift : (∃ r' ∈ rs, o = (some r'.1, r'.2)) → ∃ r' ∈ r :: rs, o = (some r'.1, r'.2) := by
      rintro ⟨r', a, b⟩; exact ⟨r', by simp [a], b⟩
    cases best with
    | none =>
      simp only [pickSmallerEdges] at h
      split at h
      · exact (pickSmallerEdges_mem h).imp id lift
      · rcases pickSmallerEdges_mem h with h | h
        · split at h
          · cases h; exact Or.inr ⟨r, by simp, rfl⟩
          · cases h
        · exact Or.inr (lift h)
    | some b =>
      simp only [pickSmallerEdges] at h
      split at h
      · exact (pickSmallerEdges_mem h).imp id lift
      · rcases pickSmallerEdges_mem h with h | h
        · split at h
          · cases h; exact Or.inr ⟨r, by simp, rfl⟩
          · exact Or.inl h
        · exact Or.inr (lift h)

theorem pickSmaller_some : ∀ (its : List (List Nat × Int)) (b : Option (List Nat) × Int), ∃ b', pickSmaller its (some b) = some b'
  | [], b => ⟨b, rfl⟩
  | r :: rs, b => by
    simp only [pickSmaller]
    split
    · exact pickSmaller_some rs b
    · split
      · exact pickSmaller_some rs _
      · exact pickSmaller_some rs b

theorem pickSymbol_some {symbols : Symbols} {name : String} {set : Sym → Option (List Nat)} (b : Option (List Nat) × Int) :
    pickSymbol symbols name set (some b) ≠ none := by
  unfold pickSymbol
  split
  · split
    · simp
    · split
      · simp
      · dsimp only
        split <;> simp
  · simp

theorem pickSymbol_bound {symbols : Symbols} {name : String} {set : Sym → Option (List Nat)} {best : Best} {sym : Sym}
    (hn : name ≠ "") (hg : AMap.get symbols name = some sym) : pickSymbol symbols name set best ≠ none := by
  unfold pickSymbol
  have hl : name.length > 0 := by
    rcases Nat.eq_zero_or_pos name.length with h | h
    · exact absurd (String.length_eq_zero_iff.1 h) hn
    · exact h
  rw [if_pos hl, hg]
  dsimp only
  split
  · simp
  · split
    · simp
    · split <;> simp

end Pat

open Pat

/-- The iterators that a search can start from are right: see C01, C04, C12 and C13. -/
structure StartsRight (ops : List Op) : Prop where
  nodes : ListOk ops
  edges : FiledOk ops
  nodeIx : NodeIndexSafe ops
  edgeIx : EdgeIndexIntact ops

/-- The iterator that a search starts from at the item is right, because what it is taken from is: the list of nodes, if the item
has no labels and no bound name; the node indexes, if one is asked; the list of edges, for an edge item; the edge indexes, if one
is asked. -/
structure StartRight (ops : List Op) (symbols : Symbols) (p : Pattern) (index : Nat) : Prop where
  nodes : index % 2 = 0 → (itemAt p index).labels = [] →
    ((itemAt p index).name = "" ∨ AMap.get symbols (itemAt p index).name = none) → ListOk ops
  nodeIx : index % 2 = 0 → (∃ kv ∈ (itemAt p index).props, NodeIndexed ops kv.1) → NodeIndexSafe ops
  edges : index % 2 = 1 → FiledOk ops
  edgeIx : index % 2 = 1 → (∃ kv ∈ (itemAt p index).props, EdgeIndexed ops kv.1) → EdgeIndexIntact ops

theorem StartsRight.at {ops : List Op} (h : StartsRight ops) (symbols : Symbols) (p : Pattern) (index : Nat) :
    StartRight ops symbols p index :=
  ⟨fun _ _ _ => h.nodes, fun _ _ => h.nodeIx, fun _ => h.edges, fun _ _ => h.edgeIx⟩

/-- The pattern can be searched for: nodes and edges in turn, beginning and ending with a node; no label twice in an edge
item; a name bound by the caller is the name of node items only, and is bound to a set of nodes of the graph; no name is used
both for nodes and for edges; and the property values are not wrappers of wrappers. -/
structure PatternOk (σ : Spec) (symbols : Symbols) (p : Pattern) : Prop where
  odd : p.length % 2 = 1
  labels : ∀ i, i < p.length → i % 2 = 1 → (itemAt p i).labels.Nodup
  bound : ∀ i, i < p.length → i % 2 = 0 → (itemAt p i).name ≠ "" → ∀ sym, AMap.get symbols (itemAt p i).name = some sym →
    sym.edges = none ∧ ∃ xs, sym.nodes = some xs ∧ xs.Nodup ∧ ∀ n ∈ xs, n ∈ σ.nodes
  kinds : ∀ i j, i < p.length → j < p.length → i % 2 = 0 → j % 2 = 1 → (itemAt p i).name = (itemAt p j).name →
    (itemAt p i).name = ""
  free : ∀ i, i < p.length → i % 2 = 1 → (itemAt p i).name ≠ "" → AMap.get symbols (itemAt p i).name = none
  flat : ∀ i, i < p.length → ∀ k v, (k, v) ∈ (itemAt p i).props → v.Flat
  flatNodes : ∀ n ∈ σ.nodes, ∀ k w, σ.nprop n k = some w → w.Flat
  flatEdges : ∀ e ∈ σ.edges, ∀ k w, σ.eprop e k = some w → w.Flat

/-- The same, but names of edge items may be bound to anything: if they are bound to edges, these are edges of the graph. -/
structure PatternSound (σ : Spec) (symbols : Symbols) (p : Pattern) : Prop where
  odd : p.length % 2 = 1
  labels : ∀ i, i < p.length → i % 2 = 1 → (itemAt p i).labels.Nodup
  bound : ∀ i, i < p.length → i % 2 = 0 → (itemAt p i).name ≠ "" → ∀ sym, AMap.get symbols (itemAt p i).name = some sym →
    sym.edges = none ∧ ∃ xs, sym.nodes = some xs ∧ xs.Nodup ∧ ∀ n ∈ xs, n ∈ σ.nodes
  kinds : ∀ i j, i < p.length → j < p.length → i % 2 = 0 → j % 2 = 1 → (itemAt p i).name = (itemAt p j).name →
    (itemAt p i).name = ""
  boundEdges : ∀ i, i < p.length → i % 2 = 1 → (itemAt p i).name ≠ "" → ∀ sym, AMap.get symbols (itemAt p i).name = some sym →
    ∀ xs, sym.edges = some xs → xs.Nodup ∧ ∀ e ∈ xs, e ∈ σ.edges
  flat : ∀ i, i < p.length → ∀ k v, (k, v) ∈ (itemAt p i).props → v.Flat
  flatNodes : ∀ n ∈ σ.nodes, ∀ k w, σ.nprop n k = some w → w.Flat
  flatEdges : ∀ e ∈ σ.edges, ∀ k w, σ.eprop e k = some w → w.Flat

theorem PatternOk.sound {σ : Spec} {symbols : Symbols} {p : Pattern} (h : PatternOk σ symbols p) : PatternSound σ symbols p :=
  ⟨h.odd, h.labels, h.bound, h.kinds, fun i hi ho hne sym hg => (by rw [h.free i hi ho hne] at hg; cases hg), h.flat,
    h.flatNodes, h.flatEdges⟩

/-- The start is a node item, or a directed edge item that matches one edge. -/
def StartOk (p : Pattern) (index : Nat) : Prop :=
  index % 2 = 1 → itemDir (itemAt p index) ≠ .any ∧ (itemAt p index).max = 1 ∧ (itemAt p index).min ≤ 1

namespace Pat
open VPath

section
variable {ops : List Op} (hv : Spec.ValidHistory ops) {s : State} (hs : run ops = some s)
variable {symbols : Symbols} {p : Pattern}
include hv hs

/-- the iterator has every matching node, once, and only nodes of the graph -/
theorem node_start (hp : PatternSound (Spec.run ops) symbols p) {i : Nat} (hh : StartRight ops symbols p i) (hi : i < p.length) (he : i % 2 = 0)
    {itr : Option (List Nat)} {sz : Int} (h : (itemAt p i).estimateNodeSize s symbols = some (itr, sz)) :
    ∃ xs, itr = some xs ∧ xs.Nodup ∧ (∀ n ∈ xs, n ∈ (Spec.run ops).nodes) ∧
      ∀ n, NodeFits (Spec.run ops) symbols (itemAt p i) n → n ∈ xs := by
  have c := Core.run hv hs
  unfold Item.estimateNodeSize at h
  simp only at h
  split at h
  rotate_left
  · cases h
  rename_i best its hbest hits
  obtain ⟨p1, p2⟩ := propIters_mem hits
  have hbest' : ∀ o, best = some o → ∃ xs, o.1 = some xs ∧ xs.Nodup ∧ (∀ n ∈ xs, n ∈ (Spec.run ops).nodes) ∧
      ∀ n, NodeFits (Spec.run ops) symbols (itemAt p i) n → n ∈ xs := by
    intro o ho
    subst ho
    split at hbest
    · rename_i hlen
      have hls : (itemAt p i).labels ≠ [] := by intro h0; rw [h0] at hlen; simp at hlen
      obtain ⟨ns0, h0, h0p⟩ := C10 ops hv s hs _ hls
      obtain ⟨xs, m, e1, _, e3, _⟩ := NodeMap.allLabels_nonempty s.byLabel (LblRep.run hv hs).ok s.nLabels _ hls
      have hxs : xs = ns0 := by simpa [State.getNodesWithAllLabels, e1] using h0
      subst hxs
      rw [e1] at hbest
      simp only [Option.some.injEq] at hbest
      split at hbest
      · cases hbest
        refine ⟨xs, rfl, h0p.nodup_iff.2 (c.nNodup.filter _), ?_, ?_⟩
        · intro y hy; exact (List.mem_filter.1 (h0p.mem_iff.1 hy)).1
        · intro n hn
          refine h0p.mem_iff.2 (List.mem_filter.2 ⟨hn.1, ?_⟩)
          simpa using hn.2.1.1
      · cases hbest
    · cases hbest
  have hpick : ∀ o, pickSmaller its best = some o → ∃ xs, o.1 = some xs ∧ xs.Nodup ∧ (∀ n ∈ xs, n ∈ (Spec.run ops).nodes) ∧
      ∀ n, NodeFits (Spec.run ops) symbols (itemAt p i) n → n ∈ xs := by
    intro o ho
    rcases pickSmaller_mem ho with ho | ⟨b, hb, rfl⟩
    · exact hbest' o ho
    · obtain ⟨k, v, ix, q1, q2, q3⟩ := p1 b hb
      have hik : NodeIndexed ops k := (nodeIx_only (s := State.new) hs (by rw [q2]; simp)).resolve_left (by simp [State.new, AMap.get])
      have hix := nodeIx_run hv (hh.nodeIx he ⟨(k, v), q1, hik⟩) hs
      obtain ⟨r1, r2, r3, r4⟩ := (hix k ix q2).find (xs := b.1) (m := b.2) q3
      refine ⟨b.1, rfl, r1, ?_, ?_⟩
      · intro y hy
        obtain ⟨w, hw⟩ := r3 y hy
        simp only [State.nval] at hw
        split at hw
        · assumption
        · cases hw
      · intro n hn
        obtain ⟨w, a, b⟩ := hn.2.1.2 k v q1
        refine r4 n w ?_ b (hp.flat i hi k v q1) (hp.flatNodes n hn.1 k w a)
        simp only [State.nval]
        rw [if_pos hn.1, (c.nprops n hn.1).2 k]; exact a
  have hsym : ∀ o, pickSymbol symbols (itemAt p i).name Sym.nodes (pickSmaller its best) = some o →
      ∃ xs, o.1 = some xs ∧ xs.Nodup ∧ (∀ n ∈ xs, n ∈ (Spec.run ops).nodes) ∧
      ∀ n, NodeFits (Spec.run ops) symbols (itemAt p i) n → n ∈ xs := by
    intro o ho
    unfold pickSymbol at ho
    split at ho
    · rename_i hlen
      have hne : (itemAt p i).name ≠ "" := by intro h0; rw [h0] at hlen; simp at hlen
      cases hg : AMap.get symbols (itemAt p i).name with
      | none => rw [hg] at ho; exact hpick o ho
      | some sym =>
        obtain ⟨_, xs, x1, x2, x3⟩ := hp.bound i hi he hne sym hg
        rw [hg] at ho
        simp only [x1] at ho
        have hxs : ∃ ys, (some xs : Option (List Nat)) = some ys ∧ ys.Nodup ∧ (∀ n ∈ ys, n ∈ (Spec.run ops).nodes) ∧
            ∀ n, NodeFits (Spec.run ops) symbols (itemAt p i) n → n ∈ ys := by
          refine ⟨xs, rfl, x2, x3, fun n hn => ?_⟩
          obtain ⟨ys, y1, y2⟩ := hn.2.2 hne sym hg
          rw [x1] at y1; cases y1; exact y2
        split at ho
        · cases ho; exact hxs
        · split at ho
          · cases ho; exact hxs
          · rename_i hb _
            cases ho
            exact hpick _ hb
    · exact hpick o ho
  split at h
  · rename_i b hb
    cases h
    exact hsym _ hb
  · simp only [Option.some.injEq, Prod.mk.injEq] at h
    rename_i hnone
    have hbn : best = none := by
      cases hb : best with
      | none => rfl
      | some b =>
        rw [hb] at hnone
        obtain ⟨b', hb'⟩ := pickSmaller_some its b
        rw [hb'] at hnone
        exact absurd hnone (pickSymbol_some (symbols := symbols) (name := (itemAt p i).name) (set := Sym.nodes) b')
    have hl : (itemAt p i).labels = [] := by
      apply Classical.byContradiction
      intro hls
      obtain ⟨xs, m, e1, _, e3, _⟩ := NodeMap.allLabels_nonempty s.byLabel (LblRep.run hv hs).ok s.nLabels _ hls
      rw [if_pos (List.length_pos_iff.2 hls), e1] at hbest
      simp only [Option.some.injEq] at hbest
      rw [if_pos (by omega), hbn] at hbest
      cases hbest
    have hb : (itemAt p i).name = "" ∨ AMap.get symbols (itemAt p i).name = none := by
      by_cases hne : (itemAt p i).name = ""
      · exact .inl hne
      · right
        cases hg : AMap.get symbols (itemAt p i).name with
        | none => rfl
        | some sym => exact absurd hnone (pickSymbol_bound hne hg)
    have hn := C01_safe_partial ops hv (hh.nodes he hl hb) s hs
    refine ⟨(Spec.run ops).nodes, ?_, c.nNodup, fun n hn => hn, fun n hn => hn.1⟩
    rw [← h.1]
    exact hn

/-- the iterator has every matching edge, or the edges that the name is bound to; every edge once, and only edges of the graph -/
theorem edge_start_sound (hp : PatternSound (Spec.run ops) symbols p) {i : Nat} (hh : StartRight ops symbols p i) (hi : i < p.length) (ho : i % 2 = 1)
    {itr : Option (List Nat)} {sz : Int} (h : (itemAt p i).estimateEdgeSize s symbols = some (itr, sz)) (hsz : sz ≠ -1) :
    ∃ xs, itr = some xs ∧ xs.Nodup ∧ (∀ e ∈ xs, e ∈ (Spec.run ops).edges) ∧
      ((∀ e ∈ (Spec.run ops).edges, (Spec.run ops).EdgeMatches (itemAt p i).labels (itemAt p i).props e → e ∈ xs) ∨
        ((itemAt p i).name ≠ "" ∧ ∃ sym, AMap.get symbols (itemAt p i).name = some sym ∧ xs = sym.edges.getD [])) := by
  have c := Core.run hv hs
  unfold Item.estimateEdgeSize at h
  split at h
  · cases h; exact absurd rfl hsz
  split at h
  · cases h
  simp only at h
  split at h
  · cases h
  rename_i its hits
  obtain ⟨p1, p2⟩ := propIters_mem hits
  have hbest' : ∀ o, (if (itemAt p i).labels.length > 0 then
        if s.allEdges.anySize s.eLabel (itemAt p i).labels ≠ -1 then
          some (s.getEdgesWithAnyLabel (itemAt p i).labels, s.allEdges.anySize s.eLabel (itemAt p i).labels)
        else none
      else none) = some o → ∃ xs, o.1 = some xs ∧ xs.Nodup ∧ (∀ e ∈ xs, e ∈ (Spec.run ops).edges) ∧
      ∀ e ∈ (Spec.run ops).edges, (Spec.run ops).EdgeMatches (itemAt p i).labels (itemAt p i).props e → e ∈ xs := by
    intro o hob
    split at hob
    rotate_left
    · cases hob
    rename_i hlen
    split at hob
    rotate_left
    · cases hob
    rename_i hne
    cases hob
    have hls : (itemAt p i).labels ≠ [] := by intro h0; rw [h0] at hlen; simp at hlen
    obtain ⟨g, xs, hpp, hae, hg⟩ := filed_run hv (hh.edges ho) hs
    have hle : xs.length ≤ 1 := Nat.le_of_not_lt fun hl => hne (by
      unfold EdgeMap.anySize
      have hn := hae.n
      rw [if_neg (by omega), if_neg (by omega)])
    have hae' : EMRep s.slot0 s.eLabel s.allEdges xs := hae.anyLabel hle
    obtain ⟨ys, y1, y2⟩ := hae'.enumAny (ls := (itemAt p i).labels) (fuel := s.idBase) (hp.labels i hi ho)
      (by rw [hpp.length_eq]; exact c.edges_length)
    refine ⟨ys, y1, y2.nodup_iff.2 (hae'.nodup.filter _), ?_, ?_⟩
    · intro y hy; exact hpp.mem_iff.1 (List.mem_filter.1 (y2.mem_iff.1 hy)).1
    · intro e he hm
      refine y2.mem_iff.2 (List.mem_filter.2 ⟨hpp.mem_iff.2 he, ?_⟩)
      rcases hm.1 with h | h
      · exact absurd h hls
      · rw [(c.eattr e he).2.2]; simpa using h
  generalize (if (itemAt p i).labels.length > 0 then
        if s.allEdges.anySize s.eLabel (itemAt p i).labels ≠ -1 then
          some (s.getEdgesWithAnyLabel (itemAt p i).labels, s.allEdges.anySize s.eLabel (itemAt p i).labels)
        else none
      else none) = best at h hbest'
  have hpick : ∀ o, pickSmallerEdges its best = some o → ∃ xs, o.1 = some xs ∧ xs.Nodup ∧ (∀ e ∈ xs, e ∈ (Spec.run ops).edges) ∧
      ∀ e ∈ (Spec.run ops).edges, (Spec.run ops).EdgeMatches (itemAt p i).labels (itemAt p i).props e → e ∈ xs := by
    intro o hb
    rcases pickSmallerEdges_mem hb with hob | ⟨b, hbi, he⟩
    · exact hbest' _ hob
    · cases he
      obtain ⟨k, v, ix, q1, q2, q3⟩ := p1 b hbi
      have hik : EdgeIndexed ops k := (edgeIx_only (s := State.new) hs (by rw [q2]; simp)).resolve_left (by simp [State.new, AMap.get])
      have hix := edgeIx_run hv (hh.edgeIx ho ⟨(k, v), q1, hik⟩) hs
      obtain ⟨r1, r2, r3, r4⟩ := (hix k ix q2).find (xs := b.1) (m := b.2) q3
      refine ⟨b.1, rfl, r1, ?_, ?_⟩
      · intro y hy
        obtain ⟨w, hw⟩ := r3 y hy
        simp only [State.eval] at hw
        split at hw
        · assumption
        · cases hw
      · intro n hn hmt
        obtain ⟨w, a, b⟩ := hmt.2 k v q1
        refine r4 n w ?_ b (hp.flat i hi k v q1) (hp.flatEdges n hn k w a)
        simp only [State.eval]
        rw [if_pos hn, (c.eprops n hn).2 k]; exact a
  have hsym : ∀ o, pickSymbol symbols (itemAt p i).name Sym.edges (pickSmallerEdges its best) = some o →
      ∃ xs, o.1 = some xs ∧ xs.Nodup ∧ (∀ e ∈ xs, e ∈ (Spec.run ops).edges) ∧
      ((∀ e ∈ (Spec.run ops).edges, (Spec.run ops).EdgeMatches (itemAt p i).labels (itemAt p i).props e → e ∈ xs) ∨
        ((itemAt p i).name ≠ "" ∧ ∃ sym, AMap.get symbols (itemAt p i).name = some sym ∧ xs = sym.edges.getD [])) := by
    intro o hob
    have hkeep : pickSmallerEdges its best = some o → ∃ xs, o.1 = some xs ∧ xs.Nodup ∧ (∀ e ∈ xs, e ∈ (Spec.run ops).edges) ∧
      ((∀ e ∈ (Spec.run ops).edges, (Spec.run ops).EdgeMatches (itemAt p i).labels (itemAt p i).props e → e ∈ xs) ∨
        ((itemAt p i).name ≠ "" ∧ ∃ sym, AMap.get symbols (itemAt p i).name = some sym ∧ xs = sym.edges.getD [])) := by
      intro hb
      obtain ⟨xs, x1, x2, x3, x4⟩ := hpick o hb
      exact ⟨xs, x1, x2, x3, .inl x4⟩
    unfold pickSymbol at hob
    split at hob
    · rename_i hlen
      have hne : (itemAt p i).name ≠ "" := by intro h0; rw [h0] at hlen; simp at hlen
      cases hg : AMap.get symbols (itemAt p i).name with
      | none => rw [hg] at hob hkeep; exact hkeep hob
      | some sym =>
        rw [hg] at hob
        dsimp only at hob
        cases hse : sym.edges with
        | none =>
          rw [hse] at hob
          cases hob
          exact ⟨[], rfl, List.nodup_nil, fun e he => (by cases he), .inr ⟨hne, sym, rfl, by rw [hse]; rfl⟩⟩
        | some xs =>
          rw [hse] at hob
          dsimp only at hob
          obtain ⟨x2, x3⟩ := hp.boundEdges i hi ho hne sym hg xs hse
          have hxs : ∃ ys, (some xs : Option (List Nat)) = some ys ∧ ys.Nodup ∧ (∀ e ∈ ys, e ∈ (Spec.run ops).edges) ∧
              ((∀ e ∈ (Spec.run ops).edges, (Spec.run ops).EdgeMatches (itemAt p i).labels (itemAt p i).props e → e ∈ ys) ∨
                ((itemAt p i).name ≠ "" ∧ ∃ sym', some sym = some sym' ∧ ys = sym'.edges.getD [])) :=
            ⟨xs, rfl, x2, x3, .inr ⟨hne, sym, rfl, by rw [hse]; rfl⟩⟩
          split at hob
          · cases hob; exact hxs
          · rename_i b hb
            split at hob
            · cases hob; exact hxs
            · cases hob
              rw [hg] at hkeep
              exact hkeep hb
    · exact hkeep hob
  split at h
  · rename_i b hb
    cases h
    exact hsym _ hb
  · simp only [Option.some.injEq, Prod.mk.injEq] at h
    obtain ⟨_, es, e1, e2⟩ := C04_filed_partial ops hv (hh.edges ho) s hs
    exact ⟨es, by rw [← h.1]; exact e1, e2.nodup_iff.2 c.eNodup, fun e he => e2.mem_iff.1 he, .inl fun e he _ => e2.mem_iff.2 he⟩

theorem edge_start (hp : PatternOk (Spec.run ops) symbols p) {i : Nat} (hh : StartRight ops symbols p i) (hi : i < p.length) (ho : i % 2 = 1)
    {itr : Option (List Nat)} {sz : Int} (h : (itemAt p i).estimateEdgeSize s symbols = some (itr, sz)) (hsz : sz ≠ -1) :
    ∃ xs, itr = some xs ∧ xs.Nodup ∧ (∀ e ∈ xs, e ∈ (Spec.run ops).edges) ∧
      ∀ e ∈ (Spec.run ops).edges, (Spec.run ops).EdgeMatches (itemAt p i).labels (itemAt p i).props e → e ∈ xs := by
  obtain ⟨xs, x1, x2, x3, x4⟩ := edge_start_sound hv hs hp.sound hh hi ho h hsz
  refine ⟨xs, x1, x2, x3, ?_⟩
  rcases x4 with x4 | ⟨hne, sym, hg, _⟩
  · exact x4
  · rw [hp.free i hi ho hne] at hg; cases hg

/-- the start that is chosen is a right one -/
theorem chosen_exact (hp : PatternOk (Spec.run ops) symbols p) {itr : Option (List Nat)} {index : Nat}
    (h : getFastestElement s symbols p = some (itr, index)) (hh : StartRight ops symbols p index) (hst : StartOk p index) :
    ∃ xs, itr = some xs ∧ xs.Nodup ∧ Exact (Spec.run ops) symbols p xs index := by
  obtain ⟨hlt, sz, h1, h2⟩ := getFastest_spec h
  by_cases he : index % 2 = 0
  · rw [if_pos he] at h1
    obtain ⟨xs, x1, x2, x3, x4⟩ := node_start hv hs hp.sound hh hlt he h1
    refine ⟨xs, x1, x2, ⟨⟨hp.odd, hlt, hp.labels, fun i hi he hn sym hg => ?_, hp.kinds, fun h => by omega, fun _ => x3,
      fun h => by omega⟩, hp.free, fun h => by omega⟩, fun _ => x4, fun h => by omega⟩
    obtain ⟨a, ys, b, _⟩ := hp.bound i hi he hn sym hg
    exact ⟨a, by rw [b]; rfl⟩
  · rw [if_neg he] at h1
    obtain ⟨xs, x1, x2, x3, x4⟩ := edge_start hv hs hp hh hlt (by omega) h1 h2
    obtain ⟨d1, d2, d3⟩ := hst (by omega)
    refine ⟨xs, x1, x2, ⟨⟨hp.odd, hlt, hp.labels, fun i hi he hn sym hg => ?_, hp.kinds, fun _ => d1, fun h => by omega,
      fun _ => x3⟩, hp.free, fun _ => ⟨d2, d3⟩⟩, fun h => by omega, fun _ => x4⟩
    obtain ⟨a, ys, b, _⟩ := hp.bound i hi he hn sym hg
    exact ⟨a, by rw [b]; rfl⟩

end

theorem pickSmaller_size : ∀ {its : List (List Nat × Int)} {best : Best}, (∀ o, best = some o → o.2 ≠ -1) →
    ∀ o, pickSmaller its best = some o → o.2 ≠ -1
  | [], best, hb, o, h => hb o h
  | r :: rs, best, hb, o, h => by
    by_cases hr : r.2 = -1
    · cases best <;> simp only [pickSmaller, if_pos hr] at h <;> exact pickSmaller_size hb o h
    · cases best with
      | none =>
        simp only [pickSmaller, if_neg hr] at h
        exact pickSmaller_size (fun o ho => by cases ho; exact hr) o h
      | some b =>
        simp only [pickSmaller, if_neg hr] at h
        refine pickSmaller_size (fun o ho => ?_) o h
        split at ho
        · cases ho; exact hr
        · cases ho; exact hb b rfl

theorem pickSymbol_size {symbols : Symbols} {name : String} {set : Sym → Option (List Nat)} {best : Best}
    (hb : ∀ o, best = some o → o.2 ≠ -1) : ∀ o, pickSymbol symbols name set best = some o → o.2 ≠ -1 := by
  intro o h
  unfold pickSymbol at h
  split at h
  · split at h
    · exact hb o h
    · split at h
      · cases h; decide
      · split at h
        · cases h; simp only [ne_eq]; omega
        · split at h
          · cases h; simp only [ne_eq]; omega
          · cases h; exact hb _ rfl
  · exact hb o h

theorem fastest_some {s : State} {symbols : Symbols} : ∀ {ps : List Item} {i : Nat}
    {best : Option (Option (List Nat) × Int × Nat)},
    (∀ q ∈ ps, q.estimateNodeSize s symbols ≠ none ∧ q.estimateEdgeSize s symbols ≠ none) → best ≠ none →
    ∃ b, fastest s symbols ps i best = some (some b)
  | [], i, best, _, hb => by
    cases best with
    | none => exact absurd rfl hb
    | some b => exact ⟨b, rfl⟩
  | q :: ps, i, best, h, hb => by
    have hq := h q (by simp)
    have hr : ∀ q ∈ ps, q.estimateNodeSize s symbols ≠ none ∧ q.estimateEdgeSize s symbols ≠ none :=
      fun q hq => h q (by simp [hq])
    rw [fastest]
    cases he : (if i % 2 = 0 then q.estimateNodeSize s symbols else q.estimateEdgeSize s symbols) with
    | none =>
      split at he
      · exact absurd he hq.1
      · exact absurd he hq.2
    | some o =>
      obtain ⟨itr, sz⟩ := o
      simp only
      split
      · cases best with
        | none => exact fastest_some hr (by simp)
        | some b =>
          simp only
          refine fastest_some hr ?_
          split <;> simp
      · exact fastest_some hr hb

/-- A start is chosen if the property indexes can be asked for the values of the pattern. -/
theorem chosen_of {ops : List Op} (hv : Spec.ValidHistory ops) (hh : StartsRight ops) {s : State} (hs : run ops = some s) {symbols : Symbols}
    {p : Pattern} (hne : p ≠ []) (hix : ∀ q ∈ p, State.propIters s.nodeIx q.props ≠ none ∧ State.propIters s.edgeIx q.props ≠ none) :
    ∃ itr index, getFastestElement s symbols p = some (itr, index) := by
  have hnode : ∀ q ∈ p, ∃ o, q.estimateNodeSize s symbols = some o ∧ o.2 ≠ -1 := by
    intro q hq
    unfold Item.estimateNodeSize
    cases hi : State.propIters s.nodeIx q.props with
    | none => exact absurd hi (hix q hq).1
    | some its =>
      have fin : ∀ best : Best, (∀ o, best = some o → o.2 ≠ -1) →
          ∃ o, (match pickSymbol symbols q.name Sym.nodes (pickSmaller its best) with
            | some b => some b
            | none => some (s.getNodes, (s.numNodes : Int))) = some o ∧ o.2 ≠ -1 := by
        intro best b2
        cases hp : pickSymbol symbols q.name Sym.nodes (pickSmaller its best) with
        | some b => exact ⟨b, rfl, pickSymbol_size (pickSmaller_size b2) _ hp⟩
        | none => exact ⟨_, rfl, by
            have := (Core.run hv hs).count
            simp only [ne_eq, State.numNodes]; omega⟩
      by_cases hlen : q.labels.length > 0
      · have hls : q.labels ≠ [] := by intro h0; rw [h0] at hlen; simp at hlen
        obtain ⟨xs, m, e1, _⟩ := NodeMap.allLabels_nonempty s.byLabel (LblRep.run hv hs).ok s.nLabels _ hls
        simp only [if_pos hlen, e1]
        refine fin _ (fun o ho => ?_)
        split at ho
        · cases ho; assumption
        · cases ho
      · simp only [if_neg hlen]
        exact fin none (fun o ho => by cases ho)
  have hedge : ∀ q ∈ p, q.estimateEdgeSize s symbols ≠ none := by
    intro q hq
    unfold Item.estimateEdgeSize
    have hon : ¬ (q.labels.length > 0 ∧ s.allEdges.n = 1 ∧ s.allEdges.only = none) := by
      rintro ⟨-, h1, h2⟩
      obtain ⟨_, es, e1, _⟩ := C04_filed_partial ops hv hh.edges s hs
      have e2 : s.getEdges = none := by
        unfold State.getEdges EdgeMap.enum
        rw [if_neg (by omega), if_pos h1, h2]
        rfl
      rw [e2] at e1
      cases e1
    rw [if_neg hon]
    split
    · simp
    · simp only
      cases hi : State.propIters s.edgeIx q.props with
      | none => exact absurd hi (hix q hq).2
      | some its =>
        simp only
        split <;> simp
  have hnode' : ∀ q ∈ p, q.estimateNodeSize s symbols ≠ none := fun q hq => by
    obtain ⟨o, h, _⟩ := hnode q hq; rw [h]; simp
  unfold getFastestElement
  cases p with
  | nil => exact absurd rfl hne
  | cons q ps =>
    obtain ⟨⟨itr, sz⟩, h1, h2⟩ := hnode q (by simp)
    have : ∃ b, fastest s symbols (q :: ps) 0 none = some (some b) := by
      rw [fastest]
      rw [if_pos rfl, h1]
      simp only
      rw [if_pos h2]
      exact fastest_some (fun q hq => ⟨hnode' q (by simp [hq]), hedge q (by simp [hq])⟩) (by simp)
    obtain ⟨⟨i, z, k⟩, hb⟩ := this
    rw [hb]
    exact ⟨i, k, rfl⟩

theorem propIters_nil : ∀ (ps : AMap String Value), State.propIters [] ps = some []
  | [] => rfl
  | (k, v) :: ps => by
    rw [State.propIters]
    simp [AMap.get, propIters_nil ps]

end Pat
end LPG
