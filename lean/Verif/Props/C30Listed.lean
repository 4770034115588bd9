import Verif.Props.C29Bound
import Verif.Props.C50All
/-!
# C30 after every history: a search reports the matches that begin with a node that the graph lists
-/
namespace LPG
open Pat

/-- `GetNodes` yields the node, or `GetNodesWithProperty` does for a property that is asked. -/
def Listed (s : State) (props : AMap String Value) (n : Nat) : Prop :=
  (∃ ns, s.getNodes = some ns ∧ n ∈ ns) ∨ ∃ kv ∈ props, ∃ ns, s.getNodesWithProperty kv.1 = some ns ∧ n ∈ ns

/-- `GetNodes` yields the node, and `GetNodesWithProperty` does for every property that is asked. -/
def ListedAll (s : State) (props : AMap String Value) (n : Nat) : Prop :=
  (∀ ns, s.getNodes = some ns → n ∈ ns) ∧ ∀ kv ∈ props, ∀ ns, s.getNodesWithProperty kv.1 = some ns → n ∈ ns

namespace Pat
open VPath

section
variable {ops : List Op} (hv : Spec.ValidHistory ops) {s : State} (hs : run ops = some s)
variable {symbols : Symbols} {p : Pattern}
include hv hs

/-- what the iterator has, in every history -/
theorem node_begin (hp : PatternSound (Spec.run ops) symbols p) {i : Nat} (hi : i < p.length) (he : i % 2 = 0)
    {itr : Option (List Nat)} {sz : Int} (h : (itemAt p i).estimateNodeSize s symbols = some (itr, sz)) :
    ∃ xs, itr = some xs ∧ xs.Nodup ∧ (∀ n ∈ xs, n ∈ (Spec.run ops).nodes ∨ Listed s (itemAt p i).props n) ∧
      ∀ n, NodeFits (Spec.run ops) symbols (itemAt p i) n → ListedAll s (itemAt p i).props n → n ∈ xs := by
  have c := Core.run hv hs
  unfold Item.estimateNodeSize at h
  simp only at h
  split at h
  rotate_left
  · cases h
  rename_i best its hbest hits
  obtain ⟨p1, p2⟩ := propIters_mem hits
  have hbest' : ∀ o, best = some o → ∃ xs, o.1 = some xs ∧ xs.Nodup ∧ (∀ n ∈ xs, n ∈ (Spec.run ops).nodes ∨ Listed s (itemAt p i).props n) ∧
      ∀ n, NodeFits (Spec.run ops) symbols (itemAt p i) n → ListedAll s (itemAt p i).props n → n ∈ xs := by
    intro o ho
    subst ho
    split at hbest
    · rename_i hlen
      have hls : (itemAt p i).labels ≠ [] := by intro h0; rw [h0] at hlen; simp at hlen
      obtain ⟨ns0, h0, h0p⟩ := C10 ops hv s hs _ hls
      obtain ⟨xs, m, e1, _, e3, _⟩ := NodeMap.allLabels_nonempty s.byLabel (LblRep.run hv hs).ok s.nLabels _ hls
      have hxs : xs = ns0 := by simpa [State.getNodesWithAllLabels, e1] using h0
      subst hxs
      rw [e1] at hbest
      simp only [Option.some.injEq] at hbest
      split at hbest
      · cases hbest
        refine ⟨xs, rfl, h0p.nodup_iff.2 (c.nNodup.filter _), ?_, ?_⟩
        · intro y hy; exact .inl (List.mem_filter.1 (h0p.mem_iff.1 hy)).1
        · intro n hn _
          refine h0p.mem_iff.2 (List.mem_filter.2 ⟨hn.1, ?_⟩)
          simpa using hn.2.1.1
      · cases hbest
    · cases hbest
  have hpick : ∀ o, pickSmaller its best = some o → ∃ xs, o.1 = some xs ∧ xs.Nodup ∧ (∀ n ∈ xs, n ∈ (Spec.run ops).nodes ∨ Listed s (itemAt p i).props n) ∧
      ∀ n, NodeFits (Spec.run ops) symbols (itemAt p i) n → ListedAll s (itemAt p i).props n → n ∈ xs := by
    intro o ho
    rcases pickSmaller_mem ho with ho | ⟨b, hb, rfl⟩
    · exact hbest' o ho
    · obtain ⟨k, v, ix, q1, q2, q3⟩ := p1 b hb
      obtain ⟨val, rep, hval⟩ := nodeSub_run hv hs k ix q2
      obtain ⟨r1, r2, r3, r4⟩ := rep.find (xs := b.1) (m := b.2) q3
      have hg : s.getNodesWithProperty k = some ix.valueItr := by simp [State.getNodesWithProperty, q2]
      refine ⟨b.1, rfl, r1, ?_, ?_⟩
      · intro y hy
        exact .inr (.inr ⟨(k, v), q1, _, hg, (rep.mem y).2 (r3 y hy)⟩)
      · intro n hn hl
        obtain ⟨w, a, b⟩ := hn.2.1.2 k v q1
        obtain ⟨w', hw'⟩ := (rep.mem n).1 (hl.2 (k, v) q1 _ hg)
        have hww : w' = w := by
          have : AMap.get (s.nProps n) k = some w' := hval n w' hw'
          rw [(c.nprops n hn.1).2 k, a] at this
          exact (Option.some.inj this).symm
        subst hww
        exact r4 n w' hw' b (hp.flat i hi k v q1) (hp.flatNodes n hn.1 k w' a)
  have hsym : ∀ o, pickSymbol symbols (itemAt p i).name Sym.nodes (pickSmaller its best) = some o →
      ∃ xs, o.1 = some xs ∧ xs.Nodup ∧ (∀ n ∈ xs, n ∈ (Spec.run ops).nodes ∨ Listed s (itemAt p i).props n) ∧
      ∀ n, NodeFits (Spec.run ops) symbols (itemAt p i) n → ListedAll s (itemAt p i).props n → n ∈ xs := by
    intro o ho
    unfold pickSymbol at ho
    split at ho
    · rename_i hlen
      have hne : (itemAt p i).name ≠ "" := by intro h0; rw [h0] at hlen; simp at hlen
      cases hg : AMap.get symbols (itemAt p i).name with
      | none => rw [hg] at ho; exact hpick o ho
      | some sym =>
        obtain ⟨_, xs, x1, x2, x3⟩ := hp.bound i hi he hne sym hg
        rw [hg] at ho
        simp only [x1] at ho
        have hxs : ∃ ys, (some xs : Option (List Nat)) = some ys ∧ ys.Nodup ∧ (∀ n ∈ ys, n ∈ (Spec.run ops).nodes ∨ Listed s (itemAt p i).props n) ∧
      ∀ n, NodeFits (Spec.run ops) symbols (itemAt p i) n → ListedAll s (itemAt p i).props n → n ∈ ys := by
          refine ⟨xs, rfl, x2, fun n hn => .inl (x3 n hn), fun n hn _ => ?_⟩
          obtain ⟨ys, y1, y2⟩ := hn.2.2 hne sym hg
          rw [x1] at y1; cases y1; exact y2
        split at ho
        · cases ho; exact hxs
        · split at ho
          · cases ho; exact hxs
          · rename_i hb _
            cases ho
            exact hpick _ hb
    · exact hpick o ho
  split at h
  · rename_i b hb
    cases h
    exact hsym _ hb
  · simp only [Option.some.injEq, Prod.mk.injEq] at h
    obtain ⟨ns, h1, h2, _⟩ := (Mono.init.runFrom Core.init hv hs).getNodes
    refine ⟨ns, by rw [← h.1]; exact h1, h2.imp (fun h => Nat.ne_of_lt h), fun n hn => .inr (.inl ⟨ns, h1, hn⟩),
      fun n _ hl => hl.1 ns h1⟩
end
end Pat

/-- C29, C30 and C32 after every history, also those that leave `GetNodes` or an index wrong, for a search that starts at a node
item: if every node that the graph lists is in the graph, the search begins with nodes of the graph, among them every node that
satisfies the item and that the graph lists. It panics exactly if there is a match that begins with one of these and whose edges
do not fit together; otherwise it reports exactly the matches that begin with one of these. So a node that is lost is missed
only where the search starts. Missing: free names that are used by two node items. -/
theorem C30_listed_partial (ops : List Op) (hv : Spec.ValidHistory ops) (s : State) (hs : run ops = some s) (symbols : Symbols)
    (p : Pattern) (hp : PatternSound (Spec.run ops) symbols p) (index : Nat) (hc : Chosen s symbols p index)
    (he : index % 2 = 0) (hu : UniqueNodeNames symbols p)
    (hlive : ∀ n, Listed s (itemAt p index).props n → n ∈ (Spec.run ops).nodes) :
    ∃ xs : List Nat, (∀ n ∈ xs, n ∈ (Spec.run ops).nodes) ∧
      (∀ n, NodeFits (Spec.run ops) symbols (itemAt p index) n → ListedAll s (itemAt p index).props n → n ∈ xs) ∧
      ((Pattern.run s symbols p = none ∧ ∃ M, Matches (Spec.run ops) (nodeSymbols symbols p) p M ∧
        StartsIn xs index M ∧ ¬ Glues (Spec.run ops).ends p index M) ∨
      (∃ rs : List Answer, Pattern.run s symbols p = some (none, rs.map (·.2)) ∧
        (∀ M, M ∈ rs.map (·.1) ↔ Matches (Spec.run ops) (nodeSymbols symbols p) p M ∧ StartsIn xs index M) ∧
        (∀ M ∈ rs.map (·.1), (rs.map (·.1)).count M = 2 ^ Match.loops (Spec.run ops) p M) ∧
        (∀ M, Matches (Spec.run ops) (nodeSymbols symbols p) p M → StartsIn xs index M →
          Glues (Spec.run ops).ends p index M) ∧
        (∀ r ∈ rs, SymbolsShow (Spec.run ops).ends index p r.1 r.2.2 ∧
          (p.length ≠ 1 → ∃ a b, Visits (Spec.run ops).ends r.2.1 a (Match.shown index r.1) b ∧
          ShownFrom (Spec.run ops).ends p index r.1 a ∧ ShownTo p index r.1 b) ∧
          (PathShows (Spec.run ops).ends r.1 r.2.1 ↔ Whole p index r.1)))) := by
  obtain ⟨itr, hc⟩ := hc
  obtain ⟨hlt, sz, h1, _⟩ := getFastest_spec hc
  rw [if_pos he] at h1
  obtain ⟨xs, rfl, x2, x3, x4⟩ := node_begin hv hs hp hlt he h1
  have hx : ∀ n ∈ xs, n ∈ (Spec.run ops).nodes := fun n hn => (x3 n hn).elim id (hlive n)
  have hq : sought p index = p := by unfold sought; rw [if_neg (by omega)]
  have := (bindings_from ops hv s hs symbols p hp index xs hc x2 (fun x h => by rw [if_pos he]; exact hx x h) hu).2
    (fun h => by omega)
  rw [hq] at this
  exact ⟨xs, hx, x4, this⟩

/-- A search that starts at a node item with labels or with a bound name and asks no index needs nothing of the history: it
reports exactly the matches. -/
theorem C30_labelled_partial (ops : List Op) (hv : Spec.ValidHistory ops) (s : State) (hs : run ops = some s) (symbols : Symbols)
    (p : Pattern) (hp : PatternSound (Spec.run ops) symbols p) (index : Nat) (hc : Chosen s symbols p index)
    (he : index % 2 = 0) (hu : UniqueNodeNames symbols p)
    (hl : (itemAt p index).labels ≠ [] ∨ (itemAt p index).name ≠ "" ∧ (AMap.get symbols (itemAt p index).name).isSome)
    (hi : ∀ kv ∈ (itemAt p index).props, ¬ NodeIndexed ops kv.1) :
    (Pattern.run s symbols p = none ∧ ∃ M, Matches (Spec.run ops) (nodeSymbols symbols p) p M ∧
      ¬ Glues (Spec.run ops).ends p index M) ∨
    (∃ rs : List Answer, Pattern.run s symbols p = some (none, rs.map (·.2)) ∧
      (∀ M, M ∈ rs.map (·.1) ↔ Matches (Spec.run ops) (nodeSymbols symbols p) p M) ∧
      (∀ M ∈ rs.map (·.1), (rs.map (·.1)).count M = 2 ^ Match.loops (Spec.run ops) p M) ∧
      (∀ M, Matches (Spec.run ops) (nodeSymbols symbols p) p M → Glues (Spec.run ops).ends p index M) ∧
      (∀ r ∈ rs, SymbolsShow (Spec.run ops).ends index p r.1 r.2.2 ∧
        (p.length ≠ 1 → ∃ a b, Visits (Spec.run ops).ends r.2.1 a (Match.shown index r.1) b ∧
          ShownFrom (Spec.run ops).ends p index r.1 a ∧ ShownTo p index r.1 b) ∧
        (PathShows (Spec.run ops).ends r.1 r.2.1 ↔ Whole p index r.1))) := by
  have hh : StartRight ops symbols p index := by
    refine ⟨fun _ h0 h1 => ?_, fun _ ⟨kv, h0, h1⟩ => absurd h1 (hi kv h0), fun h => by omega, fun h => by omega⟩
    rcases hl with h | ⟨h2, h3⟩
    · exact absurd h0 h
    · rcases h1 with h1 | h1
      · exact absurd h1 h2
      · rw [h1] at h3; cases h3
  have hlt : index < p.length := by obtain ⟨_, h⟩ := hc; exact (getFastest_spec h).1
  have hq : sought p index = p := by unfold sought; rw [if_neg (by omega)]
  obtain ⟨xs, hx, _, h⟩ := C30_bindings_partial ops hv s hs symbols p hp index hc hh hu
  have := h (fun h => by omega)
  rw [hq] at this
  unfold Starters at hx
  rw [if_pos he] at hx
  have hall : ∀ M, Matches (Spec.run ops) (nodeSymbols symbols p) p M → StartsIn xs index M := by
    intro M hM
    have hm := hM.2 index hlt
    rw [if_pos he] at hm
    obtain ⟨n, m1, m2, m3, m4⟩ := hm
    unfold StartsIn
    rw [m1]
    refine hx.2 n ⟨m2, m3, fun hne => ?_⟩
    have := m4 hne
    rwa [nodeSymbols_node hp.kinds hlt he hne] at this
  rcases this with ⟨h1, M, h2, _, h3⟩ | ⟨rs, h1, h2, h3, h4, h5⟩
  · exact .inl ⟨h1, M, h2, h3⟩
  · exact .inr ⟨rs, h1, fun M => (h2 M).trans ⟨fun h => h.1, fun h => ⟨h, hall M h⟩⟩, h3, fun M hM => h4 M hM (hall M hM), h5⟩

/-- A history that loses the node 2, which is created after the newest node was removed. -/
def unlistedOps : List Op := [.newNode [] [], .newNode [] [], .detachRemove 1, .newNode ["L"] [], .newEdge 2 0 "E" [], .newEdge 2 0 "F" []]

theorem unlistedOps_ok : Spec.ValidHistory unlistedOps ∧ (∀ op ∈ unlistedOps, FlatOp op) ∧ (Spec.run unlistedOps).nodes = [0, 2] ∧
    (run unlistedOps).bind State.getNodes = some [0] := by
  refine ⟨?_, ?_, ?_, ?_⟩ <;> decide +kernel

/-- The node is found by its label, the graph does not list it, and the edges of the node that is listed lead to it. -/
example : ¬ ListOk unlistedOps ∧
    (run unlistedOps).bind (fun s => (getFastestElement s [] [{ labels := ["L"] }, {}, {}]).map (·.2)) = some 0 ∧
    (run unlistedOps).bind (fun s => (Pattern.run s [] [{ labels := ["L"] }, {}, {}]).map
      (fun o => o.2.map (·.1))) = some [{ path := [⟨3, false⟩] }, { path := [⟨4, false⟩] }] ∧
    (run unlistedOps).bind (fun s => (getFastestElement s [] [{}, { undirected := true }, {}]).map (·.2)) = some 0 ∧
    (run unlistedOps).bind (fun s => (Pattern.run s [] [{}, { undirected := true }, {}]).map
      (fun o => o.2.map (·.1))) = some [{ path := [⟨3, true⟩] }, { path := [⟨4, true⟩] }] := by
  refine ⟨?_, ?_, ?_, ?_, ?_⟩ <;> decide +kernel

/-- The hypotheses of `C30_listed_partial` and of `C30_labelled_partial`. -/
example (s : State) (hs : run unlistedOps = some s) : PatternSound (Spec.run unlistedOps) [] [{}, { undirected := true }, {}] ∧
    PatternSound (Spec.run unlistedOps) [] [{ labels := ["L"] }, {}, {}] ∧
    (∀ n, Listed s (itemAt [{}, { undirected := true }, {}] 0).props n → n ∈ (Spec.run unlistedOps).nodes) ∧
    UniqueNodeNames [] [{}, { undirected := true }, {}] := by
  refine ⟨(PatternOk.free_symbols unlistedOps_ok.2.1 (by decide) (by decide) (by decide) (by decide +kernel)).sound,
    (PatternOk.free_symbols unlistedOps_ok.2.1 (by decide) (by decide) (by decide) (by decide +kernel)).sound, ?_, by decide⟩
  have h := unlistedOps_ok.2.2.2
  rw [hs] at h
  rintro n (⟨ns, h1, h2⟩ | ⟨kv, h1, _⟩)
  · rw [Option.bind_some, h1] at h
    cases h
    rw [unlistedOps_ok.2.2.1]
    exact List.mem_cons.2 (.inl (List.mem_singleton.1 h2))
  · cases h1

/-- C29 fails: a removed node that `GetNodes` yields is reported. -/
theorem C29_false_ghost : ¬ ∀ ops, Spec.ValidHistory ops → C29_statement ops := by
  intro h
  obtain ⟨h1, _, h3⟩ := C01_false_removed
  have w : (run [.newNode [] [], .detachRemove 0, .newNode [] [], .detachRemove 1]).bind
      (fun s => (Pattern.run s [] [{}]).map (fun o => o.2.length)) = some 1 := by decide +kernel
  obtain ⟨s, hs, w⟩ := Option.bind_eq_some_iff.1 w
  obtain ⟨⟨e, out⟩, ho, w⟩ := Option.map_eq_some_iff.1 w
  cases out with
  | nil => cases w
  | cons r out =>
    obtain ⟨M, _, ⟨_, hM⟩, _⟩ := h _ h1 s hs _ _ _ _ ho r (by simp)
    have := hM 0 (by decide)
    rw [if_pos (by decide)] at this
    obtain ⟨n, _, hn, _⟩ := this
    rw [h3] at hn
    cases hn

/-- C30 fails: a node that `GetNodes` does not yield is not found. -/
theorem C30_false_lost : ¬ ∀ ops, Spec.ValidHistory ops → C30_statement ops := by
  intro h
  have w : (run unlistedOps).bind (fun s => (Pattern.run s [] [{}]).map (fun o => o.2.length)) = some 1 := by decide +kernel
  obtain ⟨s, hs, w⟩ := Option.bind_eq_some_iff.1 w
  obtain ⟨⟨e, out⟩, ho, w⟩ := Option.map_eq_some_iff.1 w
  obtain ⟨rs, h4, _, h5⟩ := h _ unlistedOps_ok.1 s hs [] [{}] (by decide)
  have hlen : rs.length = 1 := by
    rw [h4] at ho
    cases ho
    simpa using w
  have hM : ∀ n ∈ [0, 2], Matches (Spec.run unlistedOps) [] [{}] [.node n] := by
    intro n hn
    refine ⟨rfl, fun i hi => ?_⟩
    obtain rfl : i = 0 := by simp only [List.length_singleton] at hi; omega
    rw [if_pos (by decide)]
    refine ⟨n, rfl, by rw [unlistedOps_ok.2.2.1]; exact hn, ⟨?_, ?_⟩, fun h => absurd rfl h⟩
    · simp [itemAt]
    · intro k v hk; simp [itemAt] at hk
  have h0 := h5 _ (hM 0 (by decide)) (UniqueNames.agree (by decide) _)
  have h2 := h5 _ (hM 2 (by decide)) (UniqueNames.agree (by decide) _)
  match rs, hlen with
  | [r], _ =>
    have a := List.count_pos_iff.1 (show 0 < List.count _ _ by rw [h0]; decide)
    have b := List.count_pos_iff.1 (show 0 < List.count _ _ by rw [h2]; decide)
    simp only [List.map_cons, List.map_nil, List.mem_singleton] at a b
    rw [← a] at b
    exact absurd b (by decide)

end LPG
