import Verif.Props.C37C38
/-!
# C38: several calls of CopySubgraph with one map

The map is an argument of `CopySubgraph`, so that several parts of a graph can be copied one after the other without copying
anything twice.
-/
namespace LPG
open World

/-- the calls of `CopySubgraph` for the nodes of a list, one after the other, with the same map -/
def copySubgraphs (t : Nat) (f : String → Value → Value) (st : World × AMap Nat Nat) : List Nat → Option (World × AMap Nat Nat)
  | [] => some st
  | n :: ns => (copySubgraph t f st n).bind (fun st => copySubgraphs t f st ns)

/-- What has been copied after calls for the nodes `ns` with a map that was `m0` at first. -/
structure SubDone (σs : Spec) (m0 : List (Nat × Nat)) (ns : List Nat) (m : List (Nat × Nat)) (es : List Nat) : Prop where
  here : ∀ n ∈ ns, n ∈ (m0 ++ m).map Prod.fst
  reach : ∀ p ∈ m, ∃ n ∈ ns, σs.ReachOff (m0.map Prod.fst) n p.1
  nodup : es.Nodup
  edges : ∀ e, e ∈ es ↔ e ∈ σs.edges ∧ σs.src e ∈ m.map Prod.fst
  targets : ∀ e ∈ es, σs.dst e ∈ (m0 ++ m).map Prod.fst

theorem SubDone.next {σs : Spec} {n : Nat} {ns : List Nat} {m0 m m2 : List (Nat × Nat)} {es es2 : List Nat}
    (d : SubDone σs m0 ns m es) (r : SubResult σs (m0.map Prod.fst) n (m0 ++ m) m2 es2)
    (hk : ((m0 ++ (m ++ m2)).map Prod.fst).Nodup) : SubDone σs m0 (ns ++ [n]) (m ++ m2) (es ++ es2) := by
  have hk2 : ((m ++ m2).map Prod.fst).Nodup := by
    rw [List.map_append, List.nodup_append] at hk
    exact hk.2.1
  rw [List.map_append, List.nodup_append] at hk2
  refine ⟨fun x hx => ?_, fun p hp => ?_, ?_, fun e => ?_, fun e he => ?_⟩
  · rw [← List.append_assoc]
    rcases List.mem_append.1 hx with hx | hx
    · rw [List.map_append]; exact List.mem_append_left _ (d.here x hx)
    · rw [List.mem_singleton.1 hx]; exact r.here
  · rcases List.mem_append.1 hp with hp | hp
    · obtain ⟨x, h1, h2⟩ := d.reach p hp
      exact ⟨x, by simp [h1], h2⟩
    · exact ⟨n, by simp, r.reach p hp⟩
  · rw [List.nodup_append]
    refine ⟨d.nodup, r.nodup, ?_⟩
    rintro a ha b hb rfl
    exact hk2.2.2 _ ((d.edges a).1 ha).2 _ ((r.edges a).1 hb).2 rfl
  · rw [List.mem_append, d.edges, r.edges, List.map_append, List.mem_append]
    grind
  · rw [← List.append_assoc]
    rcases List.mem_append.1 he with he | he
    · rw [List.map_append]; exact List.mem_append_left _ (d.targets e he)
    · exact r.targets e he

/-- the loop over the nodes -/
theorem copySubgraphs_spec {U L : Prop} {Pn Pe : String → Value → Prop} {f : String → Value → Value} {s t : Nat} {W0 : World}
    {ω0 : WSpec} {m0 : List (Nat × Nat)} (r0 : Rep W0 ω0)
    (hPn : ∀ n ∈ (ω0 s).nodes, ∀ k v, (ω0 s).nprop n k = some v → Pn k (f k v))
    (hPe : ∀ e ∈ (ω0 s).edges, ∀ k v, (ω0 s).eprop e k = some v → Pe k (f k v))
    (hends : ∀ e ∈ (ω0 s).edges, (ω0 s).dst e ∈ (ω0 s).nodes) :
    ∀ (ns done : List Nat) {W : World} {ω : WSpec} {m : AMap Nat Nat} {es : List Nat}, (∀ n ∈ ns, n ∈ (ω0 s).nodes) →
    CopyingInto m0 U L Pn Pe f s t W0 ω0 W ω m es → SubDone (ω0 s) m0 done m es →
    (U → copySubgraphs t f (W, m0 ++ m) ns ≠ none) ∧ ∀ r, copySubgraphs t f (W, m0 ++ m) ns = some r →
      ∃ ω' m1 es', r.2 = m0 ++ m1 ∧ CopyingInto m0 U L Pn Pe f s t W0 ω0 r.1 ω' m1 es' ∧ SubDone (ω0 s) m0 (done ++ ns) m1 es'
  | [], done, W, ω, m, es, _, c, d => by
    refine ⟨by simp [copySubgraphs], fun r h => ?_⟩
    simp only [copySubgraphs, Option.some.injEq] at h
    subst h
    exact ⟨ω, m, es, rfl, c, by simpa using d⟩
  | n :: ns, done, W, ω, m, es, hn, c, d => by
    obtain ⟨k1, k2⟩ := copySubgraph_into r0 hPn hPe hends _ (Nat.lt_succ_self _) (hn n (by simp)) c
    rw [copySubgraphs]
    cases hc : copySubgraph t f (W, m0 ++ m) n with
    | none => exact ⟨fun hU => absurd hc (k1 hU), by simp⟩
    | some st =>
      obtain ⟨ω', m2, es2, p1, p2, p3⟩ := k2 st hc
      obtain ⟨W', m'⟩ := st
      simp only at p1 p2
      subst p1
      simp only [Option.bind_some]
      have := copySubgraphs_spec r0 hPn hPe hends ns (done ++ [n]) (fun x hx => hn x (by simp [hx])) p2 (d.next p3 p2.keys)
      simpa using this

/-- `CopySubgraph` for several nodes of one graph, one after the other, with one map, which at first pairs some nodes with nodes of
the target that are to stand for them. Exactly the nodes are copied that can be reached from one of the given nodes over
outgoing edges without coming to a node of the map, each once; exactly the edges that leave these are copied, each once, and
those that lead to a node of the map lead to the node that stands for it. The map gets the copies. The target may be the graph
of the nodes itself. Both graphs may be spoiled. -/
theorem C38_given {ops : List (Nat × Op)} {W : World} (hv : WSpec.ValidHistory ops) (hr : World.run ops = some W)
    {s t : Nat} {ns : List Nat} (hn : ∀ n ∈ ns, n ∈ (WSpec.run ops s).nodes) {m0 : AMap Nat Nat} (hk : (m0.map Prod.fst).Nodup)
    (hm : ∀ p ∈ m0, p.2 ∈ (WSpec.run ops t).nodes)
    {f : String → Value → Value} {W' : World} {m : AMap Nat Nat} (h : copySubgraphs t f (W, m0) ns = some (W', m)) :
    ∃ σ' m1 es, m = m0 ++ m1 ∧ (m.map Prod.fst).Nodup ∧ Copied ops t W W' σ' m1 ∧
      CopyInto m0 f (WSpec.run ops s) (WSpec.run ops t) σ' m1 es ∧
      (∀ x, x ∈ m1.map Prod.fst ↔ ∃ n ∈ ns, (WSpec.run ops s).ReachOff (m0.map Prod.fst) n x) ∧ es.Nodup ∧
      (∀ e, e ∈ es ↔ e ∈ (WSpec.run ops s).edges ∧
        ∃ n ∈ ns, (WSpec.run ops s).ReachOff (m0.map Prod.fst) n ((WSpec.run ops s).src e)) := by
  have c0 := copyStartInto hv hr (WSpec.run ops s).nodes (WSpec.run ops s).edges s t f hk hm
  obtain ⟨ω', m1, es, p, c, d⟩ := (copySubgraphs_spec c0.rep copyNodeValue copyEdgeValue
    (fun e he => ((c0.rep.core s).ends e he).2) ns [] hn c0 ⟨by simp, by simp, by simp, by simp, by simp⟩).2 _
    (by simpa using h)
  simp only [List.nil_append] at p c d
  have hreach : ∀ x, x ∈ m1.map Prod.fst ↔ ∃ n ∈ ns, (WSpec.run ops s).ReachOff (m0.map Prod.fst) n x := by
    have new : ∀ x, x ∈ (m0 ++ m1).map Prod.fst → x ∉ m0.map Prod.fst → x ∈ m1.map Prod.fst := by
      intro x hx hx0
      rw [List.map_append] at hx
      exact (List.mem_append.1 hx).resolve_left hx0
    intro x
    constructor
    · intro hx
      obtain ⟨p, hp, rfl⟩ := List.mem_map.1 hx
      exact d.reach p hp
    · rintro ⟨n, hn, hx⟩
      induction hx with
      | refl h0 => exact new n (d.here n hn) h0
      | tail _ he hs h0 ih => exact new _ (d.targets _ ((d.edges _).2 ⟨he, hs ▸ ih⟩)) h0
  exact ⟨ω' t, m1, es, p, by rw [p]; exact c.keys, c.copied hv hr, c.copy, hreach, d.nodup, fun e => by rw [d.edges e, hreach]⟩

/-- The calls return, if the target can enumerate its edges and the values given to properties with an index in the target suit
the index. Partial: see `C38_false`. -/
theorem C38_given_returns_partial {ops : List (Nat × Op)} {W : World} (hv : WSpec.ValidHistory ops)
    (hr : World.run ops = some W) {s t : Nat} {ns : List Nat} (hn : ∀ n ∈ ns, n ∈ (WSpec.run ops s).nodes)
    {m0 : AMap Nat Nat} (hk : (m0.map Prod.fst).Nodup) (hm : ∀ p ∈ m0, p.2 ∈ (WSpec.run ops t).nodes)
    (ht : (W.view t).getEdges ≠ none) {f : String → Value → Value} (hi : CopyIndexable s t f ops) :
    copySubgraphs t f (W, m0) ns ≠ none := by
  have c0 := copyStartInto hv hr (WSpec.run ops s).nodes (WSpec.run ops s).edges s t f hk hm
  have := (copySubgraphs_spec c0.rep copyNodeValue copyEdgeValue
    (fun e he => ((c0.rep.core s).ends e he).2) ns [] hn c0 ⟨by simp, by simp, by simp, by simp, by simp⟩).1 ⟨hi, ht⟩
  simpa using this

/-- The map is empty at first: exactly the nodes that can be reached from one of the given nodes over outgoing edges are copied,
each once, and exactly the edges that leave these, each once. -/
theorem C38_several {ops : List (Nat × Op)} {W : World} (hv : WSpec.ValidHistory ops) (hr : World.run ops = some W)
    {s t : Nat} {ns : List Nat} (hn : ∀ n ∈ ns, n ∈ (WSpec.run ops s).nodes)
    {f : String → Value → Value} {W' : World} {m : AMap Nat Nat} (h : copySubgraphs t f (W, []) ns = some (W', m)) :
    ∃ σ' es, Copied ops t W W' σ' m ∧ CopyOf f (WSpec.run ops s) (WSpec.run ops t) σ' m es ∧ (m.map Prod.fst).Nodup ∧
      (∀ x, x ∈ m.map Prod.fst ↔ ∃ n ∈ ns, (WSpec.run ops s).Reach n x) ∧
      es.Nodup ∧
      (∀ e, e ∈ es ↔ e ∈ (WSpec.run ops s).edges ∧ ∃ n ∈ ns, (WSpec.run ops s).Reach n ((WSpec.run ops s).src e)) := by
  obtain ⟨σ', m1, es, p, k, h1, h2, h3, h4, h5⟩ := C38_given hv hr hn (m0 := []) (by simp) (by simp) h
  simp only [List.nil_append] at p
  subst p
  simp only [List.map_nil, Spec.reachOff_nil] at h3 h5
  exact ⟨σ', es, h1, h2, k, h3, h4, h5⟩

/-- two overlapping parts of a graph with a cycle -/
def overlapping : List (Nat × Op) :=
  [(0, .newNode ["A"] []), (0, .newNode ["B"] []), (0, .newNode ["C"] []), (0, .newNode ["D"] []),
   (0, .newEdge 0 2 "x" []), (0, .newEdge 1 2 "x" []), (0, .newEdge 2 1 "y" []), (1, .newNode ["T"] [])]

example : WSpec.ValidHistory overlapping ∧ WSpec.Clean 1 overlapping ∧
    (∀ n ∈ [0, 1, 0], n ∈ (WSpec.run overlapping 0).nodes) := by decide +kernel

/-- the three calls return, and three nodes were copied -/
example : ∃ W W' m, World.run overlapping = some W ∧ copySubgraphs 1 (fun _ v => v) (W, []) [0, 1, 0] = some (W', m) ∧
    ∀ x, x ∈ m.map Prod.fst ↔ ∃ n ∈ [0, 1, 0], (WSpec.run overlapping 0).Reach n x := by
  have hv : WSpec.ValidHistory overlapping := by decide +kernel
  have hn : ∀ n ∈ [0, 1, 0], n ∈ (WSpec.run overlapping 0).nodes := by decide +kernel
  have hi : NoIndex 1 overlapping := by
    intro op h
    simp [overlapping] at h
    grind
  cases hr : World.run overlapping with
  | none => exact absurd hr (by decide +kernel)
  | some W =>
    have hc := clean_edges hv hr (g := 1) (by decide +kernel)
    cases hs : copySubgraphs 1 (fun _ v => v) (W, []) [0, 1, 0] with
    | none => exact absurd hs (C38_given_returns_partial hv hr hn (by simp) (by simp) hc (NoIndex.copyIndexable hi))
    | some r =>
      obtain ⟨_, _, _, _, _, h, _⟩ := C38_several hv hr hn hs
      exact ⟨W, r.1, r.2, rfl, hs, h⟩

/-- With node 2 given as node 7 of the target, only nodes 0 and 1 are copied. -/
example : ∃ W W' m, World.run overlapping = some W ∧ copySubgraphs 1 (fun _ v => v) (W, [(2, 7)]) [0, 1] = some (W', (2, 7) :: m) ∧
    (∀ x, x ∈ m.map Prod.fst ↔ x = 0 ∨ x = 1) := by
  have hv : WSpec.ValidHistory overlapping := by decide +kernel
  have hn : ∀ n ∈ [0, 1], n ∈ (WSpec.run overlapping 0).nodes := by decide +kernel
  have hi : NoIndex 1 overlapping := by
    intro op h
    simp [overlapping] at h
    grind
  have hm : ∀ p ∈ [(2, 7)], p.2 ∈ (WSpec.run overlapping 1).nodes := by decide +kernel
  cases hr : World.run overlapping with
  | none => exact absurd hr (by decide +kernel)
  | some W =>
    have hc := clean_edges hv hr (g := 1) (by decide +kernel)
    cases hs : copySubgraphs 1 (fun _ v => v) (W, [(2, 7)]) [0, 1] with
    | none => exact absurd hs (C38_given_returns_partial hv hr hn (by simp) hm hc (NoIndex.copyIndexable hi))
    | some r =>
      obtain ⟨_, m1, _, h, _, _, _, hx, _⟩ := C38_given hv hr hn (by simp) hm hs
      have h' : r.2 = (2, 7) :: m1 := h
      refine ⟨W, r.1, m1, rfl, by rw [← h']; exact hs, fun x => ?_⟩
      rw [hx]
      have hout : ∀ e ∈ (WSpec.run overlapping 0).edges, (WSpec.run overlapping 0).src e = 0 ∨
          (WSpec.run overlapping 0).src e = 1 → (WSpec.run overlapping 0).dst e ∈ [2] := by decide +kernel
      constructor
      · rintro ⟨n, hn, h⟩
        have hn' : n = 0 ∨ n = 1 := by simpa using hn
        induction h with
        | refl _ => exact hn'
        | tail _ he hs h0 ih => exact absurd (hout _ he (hs ▸ ih)) h0
      · rintro (rfl | rfl)
        · exact ⟨0, by simp, .refl (by simp)⟩
        · exact ⟨1, by simp, .refl (by simp)⟩

end LPG
