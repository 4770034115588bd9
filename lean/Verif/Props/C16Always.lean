import Verif.Props.C13Always
/-!
# C16: what FindEdges yields after every history

No condition on the history. Three iterators can be chosen (graph.go:325-350); what each of them yields is said by
`GetEdgesWithAnyLabel`, by the description of the index of edges (`Verif.Spec.EdgeTrack`) and by `GetEdges`.
-/
namespace LPG
open State

/-- the first call that creates an index on the property -/
theorem EdgeIndexed.first : ∀ {ops : List Op} {k : String}, EdgeIndexed ops k →
    ∃ pre t post, ops = pre ++ .addEdgeIndex k t :: post ∧ ¬ EdgeIndexed pre k
  | [], k, ⟨t, h⟩ => by cases h
  | op :: ops, k, h => by
    by_cases h0 : ∃ t, op = .addEdgeIndex k t
    · obtain ⟨t, rfl⟩ := h0
      exact ⟨[], t, ops, rfl, by rintro ⟨t', h'⟩; cases h'⟩
    · have h' : EdgeIndexed ops k := by
        obtain ⟨t, h⟩ := h
        rcases List.mem_cons.1 h with h | h
        · exact absurd ⟨t, h.symm⟩ h0
        · exact ⟨t, h⟩
      obtain ⟨pre, t, post, rfl, hn⟩ := h'.first
      refine ⟨op :: pre, t, post, rfl, ?_⟩
      rintro ⟨t', h''⟩
      rcases List.mem_cons.1 h'' with h'' | h''
      · exact h0 ⟨t', h''.symm⟩
      · exact hn ⟨t', h''⟩

theorem DRep.find {D : List Nat} {ix : Index} {val : Nat → Option Value} {v : Value} {xs : List Nat} {m : Int}
    (h : DRep D ix val) (hf : ix.find v = some (xs, m)) : xs.Nodup ∧ (xs.length : Int) = m ∧
      (∀ id ∈ xs, ∃ w, val id = some w) ∧
      ∀ id w, val id = some w → cmp v w = some 0 → v.Flat → w.Flat → id ∈ xs := by
  cases ix with
  | btree t => exact IRep.find (ix := .btree t) h hf
  | hash t =>
    obtain ⟨O, h1, _, _⟩ := h
    exact IRep.find (ix := .hash (t.without O)) h1 (without_find h1 hf)

/-- the edge shows one of the labels and the properties -/
def State.EdgeShows (s : State) (ls : List String) (req : AMap String Value) (e : Nat) : Prop :=
  s.eLabel e ∈ ls ∧ ∀ k v, (k, v) ∈ req → ∃ w, s.edgeProperty e k = some w ∧ cmp v w = some 0

/-- C16, exactly, for every history and a non-empty set of labels. Either `NumEdges` is 0 or 1 and the answer are the
matching ones of `GetEdgesWithAnyLabel`; or one of the asked properties is indexed, and the answer are, each once, the
matching ones of the edges that the index has (`Op.etracks`: among them removed edges); or there is no index on an asked
property, and the answer is that of `GetEdges`, unfiltered. The values are not wrappers of wrappers. -/
theorem C16_exact (ops : List Op) (hv : Spec.ValidHistory ops) (ls : List String) (hls : ls ≠ [])
    (req : AMap String Value) (hreq : ∀ k v, (k, v) ∈ req → v.Flat) (s : State) (hs : run ops = some s)
    (hflat : ∀ e k w, s.edgeProperty e k = some w → w.Flat) (es : List Nat) (hf : s.findEdges ls req = some es) :
    ((s.numEdges = 0 ∨ s.numEdges = 1) ∧ ∃ xs, s.getEdgesWithAnyLabel ls = some xs ∧ es.Sublist xs ∧
      ∀ e, es.count e = xs.count e ∧ s.EdgeShows ls req e ∨ es.count e = 0 ∧ ¬ s.EdgeShows ls req e) ∨
    (∃ pre k v t post s0 es0, ops = pre ++ .addEdgeIndex k t :: post ∧ (k, v) ∈ req ∧ ¬ EdgeIndexed pre k ∧
      run pre = some s0 ∧ s0.getEdges = some es0 ∧
      Lists es ((Spec.run pre).etracksFrom k (es0.filter (fun e => (s0.edgeProperty e k).isSome)) post)
        (s.EdgeShows ls req)) ∨
    (s.numEdges ≠ 0 ∧ s.numEdges ≠ 1 ∧ (∀ k v, (k, v) ∈ req → ¬ EdgeIndexed ops k) ∧ s.getEdges = some es) := by
  have hlen : ¬ ls.length = 0 := by rw [List.length_eq_zero_iff]; exact hls
  have hok : ∀ e, edgeFilter ls req (s.eLabel e) (s.eProps e) = true ↔ s.EdgeShows ls req e := by
    intro e
    rw [edgeFilter_iff]
    simp only [hls, false_or]
    rfl
  unfold State.findEdges at hf
  rw [if_neg (fun h => hlen h.1), if_neg hlen] at hf
  split at hf
  · rename_i xs its hbl hits
    obtain ⟨p1, p2⟩ := propIters_mem hits
    rcases choose_cases hf with ⟨hne, rfl⟩ | ⟨b, hb, rfl⟩ | ⟨hb, heq, hall⟩
    · left
      refine ⟨?_, xs, hbl, List.filter_sublist, fun e => ?_⟩
      · simp only [EdgeMap.anySize] at hne
        show s.allEdges.n = 0 ∨ s.allEdges.n = 1
        grind
      · by_cases he : s.EdgeShows ls req e
        · left
          exact ⟨List.count_filter ((hok e).2 he), he⟩
        · right
          refine ⟨List.count_eq_zero.2 fun hm => he ((hok e).1 (List.mem_filter.1 hm).2), he⟩
    · right; left
      rcases (minIter_spec its none).1 b hb with hb | hb
      · obtain ⟨k, v, ix, q1, q2, q3⟩ := p1 b hb
        have hk : EdgeIndexed ops k := by
          rcases edgeIx_only (s := State.new) (k := k) hs (by simp [q2]) with hc | hc
          · simp [State.new, AMap.get] at hc
          · exact hc
        obtain ⟨pre, t, post, rfl, hn⟩ := hk.first
        obtain ⟨s0, es0, h1, h2, ⟨⟨ix', hg, r⟩, hhas, _⟩, _⟩ := run_addEdgeIndex hv hn hs
        rw [q2] at hg
        cases hg
        obtain ⟨r1, r2, r3, r4⟩ := r.find (xs := b.1) (m := b.2) q3
        refine ⟨pre, k, v, t, post, s0, es0, rfl, q1, hn, h1, h2, r1.filter _, fun x => ?_⟩
        rw [List.mem_filter, hok]
        refine ⟨fun h => ⟨?_, h.2⟩, fun h => ⟨?_, h.2⟩⟩
        · obtain ⟨w, hw⟩ := r3 x h.1
          split at hw
          · assumption
          · cases hw
        · obtain ⟨w, a, c⟩ := h.2.2 k v q1
          exact r4 x w (by rw [if_pos h.1]; exact a) c (hreq k v q1) (hflat x k w a)
      · cases hb
    · right; right
      refine ⟨?_, ?_, fun k v hkv hk => ?_, hall⟩
      · intro h0
        have h0 : s.allEdges.n = 0 := h0
        simp [EdgeMap.anySize, h0] at heq
      · intro h0
        have h0 : s.allEdges.n = 1 := h0
        simp only [EdgeMap.anySize, h0] at heq
        grind
      · cases hgix : AMap.get s.edgeIx k with
        | none => exact edgeIx_indexed hs (Or.inr hk) hgix
        | some ix =>
          obtain ⟨r, hr1, hr2⟩ := p2 k v ix hkv hgix
          have hm := ((minIter_spec its none).2 hb).2 r hr1
          obtain ⟨pre, t, post, rfl, hn⟩ := hk.first
          obtain ⟨s0, es0, _, _, ⟨⟨ix', hg, rr⟩, _, _⟩, _⟩ := run_addEdgeIndex hv hn hs
          rw [hgix] at hg
          cases hg
          have h2 := (rr.find (xs := r.1) (m := r.2) hr2).2.1
          omega
  · cases hf

/-- a removed edge is found, an edge that `GetEdges` yields twice is found once, and without an index it is found twice -/
example : (let pre : List Op := twiceOps
    let ops : List Op := pre ++ .addEdgeIndex "q" .hash :: [.newEdge 0 0 "D" [("q", .int 7)], .removeEdge 8]
    Spec.ValidHistory ops ∧ (run pre).bind State.getEdges = some [1, 7, 5, 7] ∧
    (Spec.run pre).etracksFrom "q" [7, 7] [.newEdge 0 0 "D" [("q", .int 7)], .removeEdge 8] = [7, 7, 8] ∧
    (run ops).map (fun s => ([1, 5, 7, 8].map s.eLabel)) = some ["B", "C", "B", "D"] ∧
    (run ops).bind (fun s => s.findEdges ["B", "D"] [("q", .int 7)]) = some [7, 8] ∧
    (run ops).bind (fun s => s.findEdges ["B"] [("q", .int 7)]) = some [7] ∧
    (run ops).bind (fun s => s.findEdges ["B"] []) = some [1, 7, 5, 7]) := by decide +kernel

/-- the first case: one edge only -/
example : (let ops : List Op := [.newNode [] [], .newEdge 0 0 "A" [("q", .int 7)]]
    Spec.ValidHistory ops ∧ (run ops).map State.numEdges = some 1 ∧
    (run ops).bind (fun s => s.findEdges ["A"] [("q", .int 7)]) = some [1] ∧
    (run ops).bind (fun s => s.findEdges ["A"] [("q", .int 8)]) = some []) := by decide +kernel

end LPG
