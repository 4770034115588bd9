import Verif.Props.C61
/-!
# C61: loops that remove every node or edge they visit, or change its property
-/
namespace LPG
open State

variable {k : String} {ops : List Op} {s : State}

theorem run_snoc {op : Op} {s' : State} (hs : run ops = some s) (h : LPG.step s op = some s') : run (ops ++ [op]) = some s' := by
  rw [run, runFrom_append, show LPG.runFrom State.new ops = some s from hs]
  simp [LPG.runFrom, h]

theorem Spec.run_snoc {op : Op} : Spec.run (ops ++ [op]) = (Spec.run ops).step op := by rw [Spec.run_append]; rfl

/-- A call for one node takes the property from this node only, or removes it. -/
structure Drops (H : Spec → Nat → Prop) (f : Nat → Op) : Prop where
  valid : ∀ (σ : Spec) x, H σ x → σ.Valid (f x)
  other : ∀ (σ : Spec) x y, y ≠ x → (H (σ.step (f x)) y ↔ H σ y)
  self : ∀ (σ : Spec) x, ¬ H (σ.step (f x)) x
  next : ∀ (σ : Spec) x, (σ.step (f x)).next = σ.next

/-- What such loops do, for any iterator: `Inv` holds between the rounds. -/
theorem drops_each {ι : Type} {adv : State → ι → Option (Option Nat × ι)} {H : Spec → Nat → Prop} {f : Nat → Op}
    {Inv : State → Spec → ι → List Nat → Prop} {it : ι} (d : Drops H f)
    (hlt : ∀ s σ it Y, Inv s σ it Y → ∀ y ∈ Y, y < σ.next)
    (hadv : ∀ s σ it Y, Inv s σ it Y → ∃ r it', adv s it = some (r, it') ∧
      (∀ x, r = some x → x ∉ Y ∧ H σ x ∧ Inv s σ it' (Y ++ [x])) ∧
      (r = none → (∀ x, H (Spec.run ops) x → x ∈ Y) ∧ Inv s σ it' Y))
    (hop : ∀ s s' σ it Y x, Inv s σ it (Y ++ [x]) → H σ x → LPG.step s (f x) = some s' →
      Inv s' (σ.step (f x)) it (Y ++ [x]))
    (htot : ∀ s Y x it, run (ops ++ Y.map f) = some s → Spec.ValidHistory (ops ++ (Y ++ [x]).map f) →
      H (Spec.run (ops ++ Y.map f)) x → Inv s (Spec.run (ops ++ Y.map f)) it (Y ++ [x]) → ∃ s', LPG.step s (f x) = some s')
    (hs : run ops = some s) (hv : Spec.ValidHistory ops) (hi : Inv s (Spec.run ops) it []) :
    ∃ xs s' it', xs.Nodup ∧ (∀ n, n ∈ xs ↔ H (Spec.run ops) n) ∧
      live LPG.step adv s it (eachEvents f xs) = some (eachLog f xs, s', it') ∧ run (ops ++ xs.map f) = some s' ∧
      Spec.ValidHistory (ops ++ xs.map f) ∧ ∀ n, ¬ H (Spec.run (ops ++ xs.map f)) n := by
  obtain ⟨xs, s', it', it2, h1, ⟨h2, h3, h4, h5, h6, h7, h8⟩, h9, h10⟩ := live_each (f := f) (stp := LPG.step) (adv := adv)
    (K := fun x => H (Spec.run ops) x) (B := (Spec.run ops).next)
    (Inv := fun s σ it Y => Inv s σ it Y ∧ σ = Spec.run (ops ++ Y.map f) ∧ run (ops ++ Y.map f) = some s ∧
      Spec.ValidHistory (ops ++ Y.map f) ∧ (∀ y ∈ Y, H (Spec.run ops) y ∧ ¬ H σ y) ∧
      (∀ n, n ∉ Y → (H σ n ↔ H (Spec.run ops) n)) ∧ σ.next = (Spec.run ops).next) (by
      rintro s σ it Y ⟨hi, rfl, hs, hv, hY, hn, hx⟩
      obtain ⟨r, it', h1, h2, h3⟩ := hadv _ _ _ _ hi
      refine ⟨r, it', h1, ?_, fun h0 => (h3 h0).1⟩
      intro x hr
      obtain ⟨h4, h5, h6⟩ := h2 x hr
      have e : ops ++ (Y ++ [x]).map f = (ops ++ Y.map f) ++ [f x] := by simp
      have hv' : Spec.ValidHistory (ops ++ (Y ++ [x]).map f) := by
        rw [e]; exact Spec.validFrom_append.2 ⟨hv, d.valid _ _ h5, trivial⟩
      obtain ⟨s', hs'⟩ := htot s Y x it' hs hv' h5 h6
      refine ⟨h4, by rw [← hx]; exact hlt _ _ _ _ h6 x (by simp), s', hs', hop _ _ _ _ _ _ h6 h5 hs', ?_, ?_, hv', ?_, ?_, ?_⟩
      · rw [e, Spec.run_snoc]
      · rw [e]; exact run_snoc hs hs'
      · intro y hy
        by_cases hyx : y = x
        · subst hyx; exact ⟨(hn y h4).1 h5, d.self _ _⟩
        · rcases List.mem_append.1 hy with hy | hy
          · rw [d.other _ _ _ hyx]; exact hY y hy
          · exact absurd (by simpa using hy) hyx
      · intro n hnn
        have hnx : n ≠ x := fun h => hnn (by simp [h])
        rw [d.other _ _ _ hnx]
        exact hn n (fun h => hnn (by simp [h]))
      · rw [d.next, hx]) (Spec.run ops).next (s := s) (σ := Spec.run ops) (it := it) (Y := [])
    ⟨hi, by simp, by simpa using hs, by simpa using hv, by simp, fun _ _ => Iff.rfl, rfl⟩ List.nodup_nil (by simp) (by simp)
  have h6 : ∀ y ∈ xs, H (Spec.run ops) y ∧ ¬ H (Spec.run (ops ++ xs.map f)) y := by
    rw [h3] at h6; simpa using h6
  rw [h3] at h7
  simp only [List.nil_append] at h4 h5 h7 h9 h10
  refine ⟨xs, s', it', h10, fun n => ⟨fun hn => (h6 n hn).1, h9 n⟩, h1, h4, h5, ?_⟩
  intro n
  by_cases hn : n ∈ xs
  · exact (h6 n hn).2
  · intro hh
    exact hn (h9 n ((h7 n hn).1 hh))

theorem drops_unset : Drops (fun σ n => σ.NHas k n) (fun n => .removeNodeProp n k) := by
  constructor
  · intro σ x h; exact h.1
  · intro σ x y h; simp [Spec.NHas, Spec.step, upd_other _ _ h]
  · intro σ x h; simp [Spec.NHas, Spec.step] at h
  · intro σ x; rfl

theorem drops_remove : Drops (fun σ n => σ.NHas k n) .detachRemove := by
  constructor
  · intro σ x h; exact h.1
  · intro σ x y h; simp [Spec.NHas, Spec.step, Spec.detach, h]
  · intro σ x h; simp [Spec.NHas, Spec.step] at h
  · intro σ x; rfl

theorem drops_eunset : Drops (fun σ n => σ.EHas k n) (fun n => .removeEdgeProp n k) := by
  constructor
  · intro σ x h; exact h.1
  · intro σ x y h; simp [Spec.EHas, Spec.step, upd_other _ _ h]
  · intro σ x h; simp [Spec.EHas, Spec.step] at h
  · intro σ x; rfl

theorem drops_eremove : Drops (fun σ n => σ.EHas k n) .removeEdge := by
  constructor
  · intro σ x h; exact h.1
  · intro σ x y h; simp [Spec.EHas, Spec.step, Spec.dropEdge, h]
  · intro σ x h; simp [Spec.EHas, Spec.step, Spec.dropEdge] at h
  · intro σ x; rfl

/-- With a hash index, a loop that takes the property from every node it visits returns; it visits exactly the nodes with the
property, and then no node has it. -/
theorem C61_unset {l : List (Nat × Nat)} (hs : run ops = some s) (hv : Spec.ValidHistory ops) (hi : NodeIndexSafe ops)
    (hc : hashCells s.nodeIx k = some l) :
    ∃ xs s' it', xs.Nodup ∧ (∀ n, n ∈ xs ↔ (Spec.run ops).NHas k n) ∧
      s.liveNodeHash k (eachEvents (fun n => .removeNodeProp n k) xs) = some (eachLog (fun n => .removeNodeProp n k) xs, s', it') ∧
      run (ops ++ xs.map (fun n => .removeNodeProp n k)) = some s' ∧
      Spec.ValidHistory (ops ++ xs.map (fun n => .removeNodeProp n k)) ∧
      ∀ n, ¬ (Spec.run (ops ++ xs.map (fun n => .removeNodeProp n k))).NHas k n := by
  obtain ⟨xs, s', it', h1, h2, h3, h4⟩ := drops_each (adv := advCells State.nodeIx k)
    (Inv := NHashInv k (fun n => (Spec.run ops).NHas k n)) drops_unset (fun s σ it Y hi => hi.lt) (fun s σ it Y hi => hi.adv)
    (fun s s' σ it Y x hi hx hs => hi.op (op := .removeNodeProp x k) hx.1 (fun _ => .inl (by simp)) hs)
    (fun s Y x it hs hv hx hi => by
      obtain ⟨-, -, E, r, -⟩ := hi
      exact nodeHash_unset_total r hx.1) hs hv (nodeHash_start hv hi hs hc)
  refine ⟨xs, s', it', h1, h2, ?_, h4⟩
  rw [State.liveNodeHash, liveCells, hc]
  exact h3

/-- With a hash index, a loop that removes every node it visits returns; it removes exactly the nodes with the property.
Missing: graphs with an edge that is not found under its label (C04) or an index with unsuitable values (C49), where removing
a node may panic. -/
theorem C61_remove_partial {l : List (Nat × Nat)} (hs : run ops = some s) (hv : Spec.ValidHistory ops) (hi : NodeIndexSafe ops)
    (hc : hashCells s.nodeIx k = some l) (hr : FiledOk ops)
    (hg : ∀ e ∈ (Spec.run ops).edges, foundUnder ops e = (Spec.run ops).label e) (hiv : IndexableValues ops) :
    ∃ xs s' it', xs.Nodup ∧ (∀ n, n ∈ xs ↔ (Spec.run ops).NHas k n) ∧
      s.liveNodeHash k (eachEvents .detachRemove xs) = some (eachLog .detachRemove xs, s', it') ∧
      run (ops ++ xs.map .detachRemove) = some s' ∧ Spec.ValidHistory (ops ++ xs.map .detachRemove) ∧
      ∀ n, n ∈ (Spec.run (ops ++ xs.map .detachRemove)).nodes ↔ n ∈ (Spec.run ops).nodes ∧ ¬ (Spec.run ops).NHas k n := by
  obtain ⟨xs, s', it', h1, h2, h3, h4, h5, -⟩ := drops_each (adv := advCells State.nodeIx k)
    (Inv := NHashInv k (fun n => (Spec.run ops).NHas k n)) drops_remove (fun s σ it Y hi => hi.lt) (fun s σ it Y hi => hi.adv)
    (fun s s' σ it Y x hi hx hs => hi.op (op := .detachRemove x) hx.1 (.inl (by simp)) hs)
    (fun s Y x it hs hv hx hi => by
      obtain ⟨s', h⟩ := C49_partial _ hv (hr.drain hg) (indexable_drain hiv)
      rw [show ops ++ (Y ++ [x]).map Op.detachRemove = (ops ++ Y.map .detachRemove) ++ [.detachRemove x] by simp, run,
        runFrom_append, show LPG.runFrom State.new (ops ++ Y.map .detachRemove) = some s from hs] at h
      simp only [Option.bind_some, LPG.runFrom] at h
      split at h
      · cases h
      · rename_i s1 h1; exact ⟨s1, h1⟩) hs hv (nodeHash_start hv hi hs hc)
  refine ⟨xs, s', it', h1, h2, ?_, h4, h5, ?_⟩
  · rw [State.liveNodeHash, liveCells, hc]
    exact h3
  · intro n; rw [Spec.run_append, mem_removeNodes, h2]

/-- With a hash index, a loop that takes the property from every edge it visits returns; it visits exactly the edges with the
property, and then no edge has it. -/
theorem C61_edges_unset {l : List (Nat × Nat)} (hs : run ops = some s) (hv : Spec.ValidHistory ops) (hi : EdgeIndexIntact ops)
    (hc : hashCells s.edgeIx k = some l) :
    ∃ xs s' it', xs.Nodup ∧ (∀ n, n ∈ xs ↔ (Spec.run ops).EHas k n) ∧
      s.liveEdgeHash k (eachEvents (fun n => .removeEdgeProp n k) xs) = some (eachLog (fun n => .removeEdgeProp n k) xs, s', it') ∧
      run (ops ++ xs.map (fun n => .removeEdgeProp n k)) = some s' ∧
      Spec.ValidHistory (ops ++ xs.map (fun n => .removeEdgeProp n k)) ∧
      ∀ n, ¬ (Spec.run (ops ++ xs.map (fun n => .removeEdgeProp n k))).EHas k n := by
  obtain ⟨xs, s', it', h1, h2, h3, h4⟩ := drops_each (adv := advCells State.edgeIx k)
    (Inv := EHashInv k (fun n => (Spec.run ops).EHas k n)) drops_eunset (fun s σ it Y hi => hi.lt) (fun s σ it Y hi => hi.adv)
    (fun s s' σ it Y x hi hx hs => hi.op (op := .removeEdgeProp x k) hx.1 (fun _ => .inl (by simp)) hs)
    (fun s Y x it hs hv hx hi => by
      obtain ⟨-, -, E, Z, -, r, -⟩ := hi
      exact edgeHash_unset_total r hx.1) hs hv (edgeHash_start hv hi hs hc)
  refine ⟨xs, s', it', h1, h2, ?_, h4⟩
  rw [State.liveEdgeHash, liveCells, hc]
  exact h3

/-- With a hash index, a loop that removes every edge it visits returns; it removes exactly the edges with the property. -/
theorem C61_edges_remove {l : List (Nat × Nat)} (hs : run ops = some s) (hv : Spec.ValidHistory ops) (hi : EdgeIndexIntact ops)
    (hc : hashCells s.edgeIx k = some l) :
    ∃ xs s' it', xs.Nodup ∧ (∀ n, n ∈ xs ↔ (Spec.run ops).EHas k n) ∧
      s.liveEdgeHash k (eachEvents .removeEdge xs) = some (eachLog .removeEdge xs, s', it') ∧
      run (ops ++ xs.map .removeEdge) = some s' ∧ Spec.ValidHistory (ops ++ xs.map .removeEdge) ∧
      ∀ n, n ∈ (Spec.run (ops ++ xs.map .removeEdge)).edges ↔ n ∈ (Spec.run ops).edges ∧ ¬ (Spec.run ops).EHas k n := by
  obtain ⟨xs, s', it', h1, h2, h3, h4, h5, -⟩ := drops_each (adv := advCells State.edgeIx k)
    (Inv := EHashInv k (fun n => (Spec.run ops).EHas k n)) drops_eremove (fun s σ it Y hi => hi.lt) (fun s σ it Y hi => hi.adv)
    (fun s s' σ it Y x hi hx hs => hi.op (op := .removeEdge x) hx.1 (.inl (by simp)) hs)
    (fun s Y x it hs hv hx hi => ⟨_, rfl⟩) hs hv (edgeHash_start hv hi hs hc)
  refine ⟨xs, s', it', h1, h2, ?_, h4, h5, ?_⟩
  · rw [State.liveEdgeHash, liveCells, hc]
    exact h3
  · intro n; rw [Spec.run_append, mem_removeEdges, h2]

example : ∃ s s1 s2 it1 it2, run propLoopOps = some s ∧
    s.liveNodeHash "p" (eachEvents .detachRemove [0, 1, 3]) = some (eachLog .detachRemove [0, 1, 3], s1, it1) ∧
    s.liveEdgeHash "p" (eachEvents .removeEdge [4, 6, 5]) = some (eachLog .removeEdge [4, 6, 5], s2, it2) ∧
    s1.getNodes = some [2] ∧ s2.getEdges = some [] ∧ FiledOk propLoopOps ∧
    ∀ e ∈ (Spec.run propLoopOps).edges, foundUnder propLoopOps e = (Spec.run propLoopOps).label e := by
  refine ⟨_, _, _, _, _, rfl, rfl, rfl, ?_⟩
  decide +kernel

/-! ## Without an index a loop that sets the property ends -/

/-- The loop is between the nodes `as` and `bs`; `has`: the nodes with the property at the beginning. -/
def ScanPos (k : String) (ns : List Nat) (has : Nat → Prop) (s : State) (it : NodeIt) (Y : List Nat) (f : Nat) : Prop :=
  ∃ as bs, ns = as ++ bs ∧ it.next = bs.head? ∧ (∀ n, n ∈ Y ↔ n ∈ as ∧ has n) ∧
    (∀ n ∈ bs, ((s.nProps n).get k).isSome ↔ has n) ∧ bs.length ≤ f

theorem ScanPos.scan {ns : List Nat} {has : Nat → Prop} {pr : Option Nat} (hd : NVis s.nptr s.allNodes ns pr) (hn : ns.Nodup) (f : Nat) :
    ∀ {it : NodeIt} {Y : List Nat}, ScanPos k ns has s it Y f →
    ∃ r it', scanNodes k s (f + 1) it = some (r, it') ∧
      (∀ x, r = some x → x ∉ Y ∧ ∃ as bs, ns = as ++ x :: bs ∧ it'.next = bs.head? ∧
        (∀ n, n ∈ Y ++ [x] ↔ n ∈ as ++ [x] ∧ has n) ∧ ∀ n ∈ bs, ((s.nProps n).get k).isSome ↔ has n) ∧
      (r = none → ∀ x ∈ ns, has x → x ∈ Y) := by
  induction f with
  | zero =>
    rintro it Y ⟨as, bs, h1, h2, h3, h4, h5⟩
    have : bs = [] := List.length_eq_zero_iff.1 (by omega)
    subst this
    refine ⟨none, _, by rw [scanNodes, NodeIt.adv, show it.next = none from h2], by simp, ?_⟩
    intro _ x hx hh
    exact (h3 x).2 ⟨by simpa [h1] using hx, hh⟩
  | succ f ih =>
    rintro it Y ⟨as, bs, h1, h2, h3, h4, h5⟩
    cases bs with
    | nil =>
      refine ⟨none, _, by rw [scanNodes, NodeIt.adv, show it.next = none from h2], by simp, ?_⟩
      intro _ x hx hh
      exact (h3 x).2 ⟨by simpa [h1] using hx, hh⟩
    | cons b bs =>
      have hnx : s.nptr.next b = bs.head? := by rw [h1] at hd; exact hd.next_of
      rw [scanNodes, NodeIt.adv, show it.next = some b from h2]
      have hb : b ∉ as := by
        rw [h1, List.nodup_append] at hn
        exact fun h => hn.2.2 b h b (by simp) rfl
      dsimp only
      by_cases hp : has b
      · have hq : (s.nodeProperty b k).isSome = true := (h4 b (by simp)).2 hp
        simp only [hq, if_true]
        refine ⟨_, _, rfl, ?_, by simp⟩
        intro x hx
        cases hx
        refine ⟨fun h => hb ((h3 b).1 h).1, as, bs, h1, hnx, ?_, fun n hn => h4 n (by simp [hn])⟩
        intro n
        simp only [List.mem_append, List.mem_singleton, h3]
        constructor
        · rintro (⟨h, h'⟩ | rfl)
          · exact ⟨.inl h, h'⟩
          · exact ⟨.inr rfl, hp⟩
        · rintro ⟨h | rfl, h'⟩
          · exact .inl ⟨h, h'⟩
          · exact .inr rfl
      · have hq : (s.nodeProperty b k).isSome = false := by
          cases h : (s.nodeProperty b k).isSome with
          | false => rfl
          | true => exact absurd ((h4 b (by simp)).1 h) hp
        simp only [hq, Bool.false_eq_true, if_false]
        refine ih ⟨as ++ [b], bs, by simp [h1], hnx, ?_, fun n hn => h4 n (by simp [hn]), by simp at h5; omega⟩
        intro n
        rw [h3]
        simp only [List.mem_append, List.mem_singleton]
        constructor
        · rintro ⟨h, h'⟩; exact ⟨.inl h, h'⟩
        · rintro ⟨h | rfl, h'⟩
          · exact ⟨h, h'⟩
          · exact absurd h' hp

theorem run_setNodeProp_noix {n : Nat} {v : Value} (h : AMap.get s.nodeIx k = none) :
    LPG.step s (.setNodeProp n k v) = some { s with nProps := upd s.nProps n ((s.nProps n).set k v) } := by
  simp only [LPG.step, State.setNodeProp, Indexes.add, Indexes.remove]
  cases AMap.get (s.nProps n) k <;> simp [h]

/-- Without an index, a loop that sets the property of every node it visits returns, and visits exactly the nodes that had the
property when it began. With a hash index it does not end (`C61_forever`).
Missing: histories after which the list of nodes is wrong (C01). -/
theorem C61_scan_set_partial (f : Nat → Value) (hs : run ops = some s) (hv : Spec.ValidHistory ops)
    (hc : ListOk ops) (hk : AMap.get s.nodeIx k = none) :
    ∃ xs s' it', xs.Nodup ∧ (∀ n, n ∈ xs ↔ (Spec.run ops).NHas k n) ∧
      s.liveNodeScan k (eachEvents (fun n => .setNodeProp n k (f n)) xs) =
        some (eachLog (fun n => .setNodeProp n k (f n)) xs, s', it') := by
  have c := Core.run hv hs
  have hok : NOk s (Spec.run ops) _ := NOk.runFrom Core.init NOk.init hv hc hs
  obtain ⟨pr, hd, -⟩ := hok.vis
  have hlen : (Spec.run ops).nodes.length ≤ s.idBase := by
    have := List.Subperm.length_le (List.subperm_of_subset c.nNodup (l₂ := List.range s.idBase)
      (fun y hy => List.mem_range.2 (by rw [c.next]; exact c.nLt y hy)))
    simpa using this
  have h0 : ∀ n ∈ (Spec.run ops).nodes, ((s.nProps n).get k).isSome ↔ (Spec.run ops).NHas k n := by
    intro n hn
    rw [(c.nprops n hn).2 k]
    simp only [Spec.NHas, hn, true_and]
    cases (Spec.run ops).nprop n k <;> simp
  obtain ⟨xs, s', it', it2, h1, ⟨-, -, -, -, h2⟩, h3, h4⟩ := live_each (f := fun n => .setNodeProp n k (f n))
    (stp := LPG.step) (adv := fun s it => scanNodes k s (s.idBase + 1) it) (K := fun x => (Spec.run ops).NHas k x) (B := s.idBase)
    (Inv := fun s1 _ it Y => s1.nptr = s.nptr ∧ s1.allNodes = s.allNodes ∧ s1.idBase = s.idBase ∧
      AMap.get s1.nodeIx k = none ∧ ∃ f, f ≤ s.idBase ∧ ScanPos k (Spec.run ops).nodes (fun x => (Spec.run ops).NHas k x) s1 it Y f) (by
      rintro s1 σ it Y ⟨h1, h2, h3, h4, f', hf, as, bs, p1, p2, p3, p4, p5⟩
      obtain ⟨r, it', h5, h6, h7⟩ := ScanPos.scan (s := s1) (k := k) (by rw [h1, h2]; exact hd) c.nNodup s.idBase
        ⟨as, bs, p1, p2, p3, p4, by omega⟩
      refine ⟨r, it', by rw [h3]; exact h5, ?_, fun h0 x hx => h7 h0 x hx.1 hx⟩
      intro x hx
      obtain ⟨h8, as, bs, h9, h10, h11, h12⟩ := h6 x hx
      refine ⟨h8, ?_, _, run_setNodeProp_noix h4, h1, h2, h3, h4, s.idBase, Nat.le_refl _, as ++ [x], bs, by simp [h9], h10, h11,
        ?_, ?_⟩
      · rw [c.next]; exact c.nLt x (by simp [h9])
      · intro n hn
        have hnx : n ≠ x := by
          have := c.nNodup
          rw [h9, List.nodup_append, List.nodup_cons] at this
          rintro rfl
          exact this.2.1.1 hn
        dsimp only
        rw [upd_other _ _ hnx]
        exact h12 n hn
      · rw [h9] at hlen
        simp at hlen
        omega) s.idBase (s := s) (σ := Spec.run ops) (it := s.openNodes) (Y := [])
    ⟨rfl, rfl, rfl, hk, s.idBase, Nat.le_refl _, [], (Spec.run ops).nodes, rfl, hd.head, by simp, h0, hlen⟩
    List.nodup_nil (by simp) (by simp)
  simp only [List.nil_append] at h2 h3 h4
  refine ⟨xs, s', it', h4, fun n => ⟨fun hn => ?_, h3 n⟩, ?_⟩
  · obtain ⟨f', hf, as, bs, p1, p2, p3, p4, p5⟩ := h2
    exact ((p3 n).1 hn).2
  · rw [State.liveNodeScan, hk]
    exact h1

/-- The same program without the index and with it: the first loop ends, the second does not. -/
example : ∃ s log s' it, run (propLoopOps.drop 1) = some s ∧
    s.liveNodeScan "p" (eachEvents (fun n => .setNodeProp n "p" (.int 0)) [0, 1, 3]) = some (log, s', it) ∧
    Spec.ValidHistory (propLoopOps.drop 1) ∧ ListOk (propLoopOps.drop 1) ∧ Seen.visited log = [0, 1, 3] := by
  refine ⟨_, _, _, _, rfl, rfl, ?_⟩
  decide +kernel

end LPG
