import Verif.Proofs.Same
import Verif.Props.C05C09
import Verif.Props.C10C11
import Verif.Props.C12C16
import Verif.Props.C07Exact
import Verif.Props.C31
import Verif.Props.C72
/-!
# C73: questions are answered by the graph, not by how it was built

Two programs that build the same graph, up to the identities of nodes and edges, get the same answers, up to these identities
and the order. What is written and read back, for instance, answers as the original does.
-/
namespace LPG
open Pat Json

section
variable {ops ops' : List Op} {f h : Nat → Nat}

/-- In every history: the number of nodes, the attributes of nodes and edges, the edges of a node by direction and label, the
edges between two nodes, the neighbours, and the nodes with labels. -/
theorem C73_always (hv : Spec.ValidHistory ops) (hv' : Spec.ValidHistory ops') {s s' : State} (hs : run ops = some s)
    (hs' : run ops' = some s') (S : (Spec.run ops).SameAs (Spec.run ops') f h) : AnswersAlike (Spec.run ops) f h s s' := by
  have c := Core.run hv hs
  have c' := Core.run hv' hs'
  obtain ⟨an, ae⟩ := C09 ops hv s hs
  obtain ⟨an', ae'⟩ := C09 ops' hv' s' hs'
  have hsrc := fun {e n : Nat} => @Spec.SameAs.src_eq _ _ _ _ S c.ends e n
  have hdst := fun {e n : Nat} => @Spec.SameAs.dst_eq _ _ _ _ S c.ends e n
  have both : ∀ {a b a' b' o i : Option (List Nat)}, Renamed h a a' → Renamed h b b' → (∀ xs ys, a = some xs → b = some ys → o = some (xs ++ ys)) →
      (∀ xs ys, a' = some xs → b' = some ys → i = some (xs ++ ys)) → Renamed h o i := by
    rintro a b a' b' o i ⟨xs, xs', h1, h2, h3⟩ ⟨ys, ys', h4, h5, h6⟩ h7 h8
    exact ⟨xs ++ ys, xs' ++ ys', h7 _ _ h1 h4, h8 _ _ h2 h5, by rw [List.map_append]; exact h3.append h6⟩
  refine ⟨?_, fun n hn l => ?_, fun n hn k => ?_, fun e he => ?_, fun e he => ?_, fun e he k => ?_, fun n hn d => ?_,
    fun n hn ls hls d => ?_, fun a ha b hb => ?_, fun n hn l => ?_, fun n hn l => ?_, fun ls hls => ?_⟩
  · show s'.allNodes.n = s.allNodes.n
    rw [c.count, c'.count, S.nodes.length_eq c.nNodup c'.nNodup]
  · rw [(an n hn).2.2.2, (an' _ (S.nodes.1 n hn)).2.2.2, S.labels n hn]
  · rw [(an n hn).1, (an' _ (S.nodes.1 n hn)).1, S.nprop n hn]
  · rw [(ae e he).2.2.1, (ae e he).2.2.2, (ae' _ (S.edges.1 e he)).2.2.1, (ae' _ (S.edges.1 e he)).2.2.2, S.src e he, S.dst e he]
    exact ⟨rfl, rfl⟩
  · rw [(ae e he).2.1, (ae' _ (S.edges.1 e he)).2.1, S.label e he]
  · rw [(ae e he).1, (ae' _ (S.edges.1 e he)).1, S.eprop e he]
  · obtain ⟨outs, ins, h1, h2, h3, h4, h5⟩ := C05 ops hv s hs n hn
    obtain ⟨outs', ins', g1, g2, g3, g4, g5⟩ := C05 ops' hv' s' hs' (f n) (S.nodes.1 n hn)
    have ko : Renamed h (s.nodeEdges n .outgoing) (s'.nodeEdges (f n) .outgoing) :=
      Renamed.of_filter S.edges c.eNodup c'.eNodup (fun e he => by rw [Bool.eq_iff_iff]; simpa using (hsrc he hn).symm) h1 g1 h4 g4
    have ki : Renamed h (s.nodeEdges n .incoming) (s'.nodeEdges (f n) .incoming) :=
      Renamed.of_filter S.edges c.eNodup c'.eNodup (fun e he => by rw [Bool.eq_iff_iff]; simpa using (hdst he hn).symm) h2 g2 h5 g5
    cases d with
    | outgoing => exact ko
    | incoming => exact ki
    | any =>
      refine both ki ko (fun xs ys hx hy => ?_) (fun xs ys hx hy => ?_)
      · rw [h2] at hx; rw [h1] at hy; cases hx; cases hy; exact h3
      · rw [g2] at hx; rw [g1] at hy; cases hx; cases hy; exact g3
  · obtain ⟨outs, ins, h1, h2, h3, h4, h5⟩ := C06_any ops hv s hs n hn ls hls
    obtain ⟨outs', ins', g1, g2, g3, g4, g5⟩ := C06_any ops' hv' s' hs' (f n) (S.nodes.1 n hn) ls hls
    have ko : Renamed h (s.nodeEdgesWithAnyLabel n ls .outgoing) (s'.nodeEdgesWithAnyLabel (f n) ls .outgoing) :=
      Renamed.of_filter S.edges c.eNodup c'.eNodup
        (fun e he => by rw [Bool.eq_iff_iff]; simp only [decide_eq_true_eq]; rw [hsrc he hn, S.label e he]) h1 g1 h4 g4
    have ki : Renamed h (s.nodeEdgesWithAnyLabel n ls .incoming) (s'.nodeEdgesWithAnyLabel (f n) ls .incoming) :=
      Renamed.of_filter S.edges c.eNodup c'.eNodup
        (fun e he => by rw [Bool.eq_iff_iff]; simp only [decide_eq_true_eq]; rw [hdst he hn, S.label e he]) h2 g2 h5 g5
    cases d with
    | outgoing => exact ko
    | incoming => exact ki
    | any =>
      refine both ki ko (fun xs ys hx hy => ?_) (fun xs ys hx hy => ?_)
      · rw [h2] at hx; rw [h1] at hy; cases hx; cases hy; exact h3
      · rw [g2] at hx; rw [g1] at hy; cases hx; cases hy; exact g3
  · obtain ⟨es, h1, h2⟩ := C34_edgesBetween ops hv s hs a b ha
    obtain ⟨es', g1, g2⟩ := C34_edgesBetween ops' hv' s' hs' (f a) (f b) (S.nodes.1 a ha)
    exact Renamed.of_filter S.edges c.eNodup c'.eNodup
      (fun e he => by rw [Bool.eq_iff_iff]; simp only [decide_eq_true_eq]; rw [hsrc he ha, hdst he hb]) h1 g1 h2 g2
  · obtain ⟨ns, h1, h2, h3⟩ := C34_nextNodesWith ops hv s hs n hn l
    obtain ⟨ns', g1, g2, g3⟩ := C34_nextNodesWith ops' hv' s' hs' (f n) (S.nodes.1 n hn) l
    refine ⟨ns, ns', h1, g1, perm_of_mem S.nodes h2 g2 (fun x hx => ?_) (fun y hy => ?_) (fun x hx => ?_)⟩
    · obtain ⟨e, he, _, _, rfl⟩ := (h3 x).1 hx; exact (c.ends e he).2
    · obtain ⟨e, he, _, _, rfl⟩ := (g3 y).1 hy; exact (c'.ends e he).2
    · rw [h3, g3]
      constructor
      · rintro ⟨e, he, a1, a2, a3⟩
        exact ⟨h e, S.edges.1 e he, (hsrc he hn).2 a1, by rw [S.label e he, a2], (hdst he hx).2 a3⟩
      · rintro ⟨e', he', a1, a2, a3⟩
        obtain ⟨e, he, rfl⟩ := S.edges.2.2 e' he'
        exact ⟨e, he, (hsrc he hn).1 a1, by rw [← S.label e he, a2], (hdst he hx).1 a3⟩
  · obtain ⟨ns, h1, h2, h3⟩ := C34_prevNodesWith ops hv s hs n hn l
    obtain ⟨ns', g1, g2, g3⟩ := C34_prevNodesWith ops' hv' s' hs' (f n) (S.nodes.1 n hn) l
    refine ⟨ns, ns', h1, g1, perm_of_mem S.nodes h2 g2 (fun x hx => ?_) (fun y hy => ?_) (fun x hx => ?_)⟩
    · obtain ⟨e, he, _, _, rfl⟩ := (h3 x).1 hx; exact (c.ends e he).1
    · obtain ⟨e, he, _, _, rfl⟩ := (g3 y).1 hy; exact (c'.ends e he).1
    · rw [h3, g3]
      constructor
      · rintro ⟨e, he, a1, a2, a3⟩
        exact ⟨h e, S.edges.1 e he, (hdst he hn).2 a1, by rw [S.label e he, a2], (hsrc he hx).2 a3⟩
      · rintro ⟨e', he', a1, a2, a3⟩
        obtain ⟨e, he, rfl⟩ := S.edges.2.2 e' he'
        exact ⟨e, he, (hdst he hn).1 a1, by rw [← S.label e he, a2], (hsrc he hx).1 a3⟩
  · obtain ⟨ns, h1, h2⟩ := C10 ops hv s hs ls hls
    obtain ⟨ns', g1, g2⟩ := C10 ops' hv' s' hs' ls hls
    exact Renamed.of_filter S.nodes c.nNodup c'.nNodup
      (fun n hn => by rw [Bool.eq_iff_iff]; simp only [decide_eq_true_eq, S.labels n hn]) h1 g1 h2 g2

/-- The enumerations of all nodes and all edges, sources and sinks, for two histories that are not spoiled by C01 and C04.
Missing: the other histories (`C73_false`). -/
theorem C73_lists_partial (hv : Spec.ValidHistory ops) (hv' : Spec.ValidHistory ops') (hn : ListOk ops) (hn' : ListOk ops')
    (he : FiledOk ops) (he' : FiledOk ops') {s s' : State} (hs : run ops = some s)
    (hs' : run ops' = some s') (S : (Spec.run ops).SameAs (Spec.run ops') f h) : ListsAlike f h s s' := by
  have c := Core.run hv hs
  have c' := Core.run hv' hs'
  obtain ⟨e1, es, e2, e3⟩ := C04_filed_partial ops hv he s hs
  obtain ⟨e1', es', e2', e3'⟩ := C04_filed_partial ops' hv' he' s' hs'
  obtain ⟨k1, k2⟩ := C34_sources_sinks_partial ops hv hn s hs
  obtain ⟨k1', k2'⟩ := C34_sources_sinks_partial ops' hv' hn' s' hs'
  refine ⟨⟨_, _, C01_safe_partial ops hv hn s hs, C01_safe_partial ops' hv' hn' s' hs', S.nodes.perm c.nNodup c'.nNodup⟩,
    ⟨es, es', e2, e2', (e3.map h).trans ((S.edges.perm c.eNodup c'.eNodup).trans e3'.symm)⟩, ?_,
    Renamed.of_filter S.nodes c.nNodup c'.nNodup (fun n hn => ?_) k1 k1' (List.Perm.refl _) (List.Perm.refl _),
    Renamed.of_filter S.nodes c.nNodup c'.nNodup (fun n hn => ?_) k2 k2' (List.Perm.refl _) (List.Perm.refl _)⟩
  · rw [e1, e1', S.edges.length_eq c.eNodup c'.eNodup]
  · rw [Bool.eq_iff_iff]
    simp only [decide_eq_true_eq]
    constructor
    · intro hk e' he'
      obtain ⟨e, he, rfl⟩ := S.edges.2.2 e' he'
      exact fun hd => hk e he ((S.dst_eq c.ends he hn).1 hd)
    · intro hk e he hd
      exact hk (h e) (S.edges.1 e he) ((S.dst_eq c.ends he hn).2 hd)
  · rw [Bool.eq_iff_iff]
    simp only [decide_eq_true_eq]
    constructor
    · intro hk e' he'
      obtain ⟨e, he, rfl⟩ := S.edges.2.2 e' he'
      exact fun hd => hk e he ((S.src_eq c.ends he hn).1 hd)
    · intro hk e he hd
      exact hk (h e) (S.edges.1 e he) ((S.src_eq c.ends he hn).2 hd)

/-- The edges by label, for two histories in which no edge is relabeled. Missing: the other histories, for which an edge is
found under an old label (C07). -/
theorem C73_edgeLabels_partial (hv : Spec.ValidHistory ops) (hv' : Spec.ValidHistory ops') (hn : NoRelabel ops) (hn' : NoRelabel ops')
    {s s' : State} (hs : run ops = some s) (hs' : run ops' = some s') (S : (Spec.run ops).SameAs (Spec.run ops') f h)
    (ls : List String) (hls : ls.Nodup) : Renamed h (s.getEdgesWithAnyLabel ls) (s'.getEdgesWithAnyLabel ls) := by
  have c := Core.run hv hs
  have c' := Core.run hv' hs'
  obtain ⟨es, h1, h2⟩ := C07_partial ops hv hn s hs ls hls
  obtain ⟨es', g1, g2⟩ := C07_partial ops' hv' hn' s' hs' ls hls
  exact Renamed.of_filter S.edges c.eNodup c'.eNodup
    (fun e he => by rw [Bool.eq_iff_iff]; simp only [decide_eq_true_eq, S.label e he]) h1 g1 h2 g2

/-- The nodes that have a property, whether the key is indexed in the one history, in the other, in both or in none. Missing: the
histories spoiled by C01. -/
theorem C73_nodeProperty_partial (hv : Spec.ValidHistory ops) (hv' : Spec.ValidHistory ops') (hn : ListOk ops) (hn' : ListOk ops')
    (hi : NodeIndexSafe ops) (hi' : NodeIndexSafe ops') {s s' : State} (hs : run ops = some s) (hs' : run ops' = some s')
    (S : (Spec.run ops).SameAs (Spec.run ops') f h) (k : String) : Renamed f (s.getNodesWithProperty k) (s'.getNodesWithProperty k) := by
  have c := Core.run hv hs
  have c' := Core.run hv' hs'
  obtain ⟨ns, h1, h2⟩ := C12_partial ops hv hn hi k s hs
  obtain ⟨ns', g1, g2⟩ := C12_partial ops' hv' hn' hi' k s' hs'
  exact Renamed.of_filter S.nodes c.nNodup c'.nNodup (fun n hn => by rw [S.nprop n hn]) h1 g1 h2 g2

/-- The edges that have a property. Missing: the histories spoiled by C04 or C13. -/
theorem C73_edgeProperty_partial (hv : Spec.ValidHistory ops) (hv' : Spec.ValidHistory ops') (hn : FiledOk ops) (hn' : FiledOk ops')
    (hi : EdgeIndexIntact ops) (hi' : EdgeIndexIntact ops') {s s' : State} (hs : run ops = some s) (hs' : run ops' = some s')
    (S : (Spec.run ops).SameAs (Spec.run ops') f h) (k : String) : Renamed h (s.getEdgesWithProperty k) (s'.getEdgesWithProperty k) := by
  have c := Core.run hv hs
  have c' := Core.run hv' hs'
  have key : ∀ {ops}, Spec.ValidHistory ops → FiledOk ops → EdgeIndexIntact ops → C13_statement ops k := by
    intro ops hv hn hi
    by_cases hk : EdgeIndexed ops k
    · exact C13_indexed_partial ops hv hi k hk
    · exact C13_scan_partial ops hv hn k hk
  obtain ⟨ns, h1, h2⟩ := key hv hn hi s hs
  obtain ⟨ns', g1, g2⟩ := key hv' hn' hi' s' hs'
  exact Renamed.of_filter S.edges c.eNodup c'.eNodup (fun n hn => by rw [S.eprop n hn]) h1 g1 h2 g2

/-- `FindNodes` with labels, whatever indexes the two histories made: if both calls return, they find the same nodes. Missing:
calls without labels or after C01, and values that are wrappers of wrappers (C14). -/
theorem C73_findNodes_partial (hv : Spec.ValidHistory ops) (hv' : Spec.ValidHistory ops')
    (hi : NodeIndexSafe ops) (hi' : NodeIndexSafe ops') {s s' : State} (hs : run ops = some s) (hs' : run ops' = some s')
    (S : (Spec.run ops).SameAs (Spec.run ops') f h) (ls : List String) (hls : ls ≠ []) (req : AMap String Value)
    (hreq : ∀ k v, (k, v) ∈ req → v.Flat)
    (hflat : ∀ n ∈ (Spec.run ops).nodes, ∀ k w, (Spec.run ops).nprop n k = some w → w.Flat) :
    BothRenamed f (s.findNodes ls req) (s'.findNodes ls req) := by
  intro xs ys hx hy
  obtain ⟨h1, h2⟩ := C14_partial ops hv hi ls hls req hreq hflat s hs xs hx
  obtain ⟨g1, g2⟩ := C14_partial ops' hv' hi' ls hls req hreq (fun n hn k w hw => by
    obtain ⟨x, hx, rfl⟩ := S.nodes.2.2 n hn
    rw [S.nprop x hx] at hw
    exact hflat x hx k w hw) s' hs' ys hy
  refine perm_of_mem S.nodes h1 g1 (fun x hx => ((h2 x).1 hx).1) (fun y hy => ((g2 y).1 hy).1) (fun x hx => ?_)
  rw [h2, g2, S.nodeMatches hx]
  exact and_congr ⟨fun _ => S.nodes.1 x hx, fun _ => hx⟩ Iff.rfl

theorem Spec.SameAs.loops {σ σ' : Spec} (S : σ.SameAs σ' f h) (hc : EndsIn σ) (p : Pattern) {M : Match} (hin : M.In σ) :
    Match.loops σ' p (M.rename f h) = Match.loops σ p M := by
  unfold Match.loops
  refine List.countP_congr (fun i _ => ?_)
  have : Val.loops σ' (M.rename f h)[i]? = Val.loops σ M[i]? := by
    rw [show (M.rename f h)[i]? = M[i]?.map (Val.rename f h) from List.getElem?_map ..]
    cases hv : M[i]? with
    | none => rfl
    | some v =>
      have hv := hin v (List.mem_of_getElem? hv)
      cases v with
      | node n => rfl
      | trail es =>
        have hv : ∀ e ∈ es, e ∈ σ.edges := hv
        simp only [Option.map_some, Val.rename, Val.loops, List.all_map]
        rw [Bool.eq_iff_iff, List.all_eq_true, List.all_eq_true]
        refine forall_congr' (fun e => imp_congr_right (fun he => ?_))
        simp only [Function.comp_apply, decide_eq_true_eq, S.src e (hv e he), S.dst e (hv e he)]
        exact ⟨fun heq => S.nodes.2.1 _ (hc e (hv e he)).1 _ (hc e (hv e he)).2 heq, fun heq => by rw [heq]⟩
  unfold loopAt
  rw [this]

/-- the other graph has as many of a match as of the match it comes from -/
theorem count_rename {σ σ' : Spec} (S : σ.SameAs σ' f h) {M : Match} (hM : M.In σ) : ∀ {Ms : List Match}, (∀ N ∈ Ms, N.In σ) →
    (Ms.map (Match.rename f h)).count (M.rename f h) = Ms.count M
  | [], _ => rfl
  | N :: Ms, hin => by
    rw [List.map_cons, List.count_cons, List.count_cons, count_rename S hM (fun K hK => hin K (by simp [hK]))]
    by_cases heq : N = M
    · rw [heq]; simp
    · have : N.rename f h ≠ M.rename f h := fun h => heq (S.rename_inj (hin N (by simp)) hM h)
      simp [heq, this]

/-- The fact behind the theorems about searches: the reports of a search in the one graph, and of one in the other. -/
theorem Counted.renamed {symbols : Symbols} {p : Pattern} {σ σ' : Spec} (S : σ.SameAs σ' f h) (hc : EndsIn σ) (hc' : EndsIn σ')
    (hp : PatternOk σ symbols p) {i j : Nat} {rs rs' : List Answer} (a : Counted σ symbols p i rs)
    (b : Counted σ' (renameSymbols f h symbols) p j rs') (hu : UniqueNodeNames symbols p) :
    ((rs.map (·.1)).map (Match.rename f h)).Perm (rs'.map (·.1)) := by
  have hu' : UniqueNodeNames (renameSymbols f h symbols) p := by
    intro a ha b hb hab hne hn
    rw [get_renameSymbols, Option.isSome_map]
    exact hu a ha b hb hab hne hn
  have hin : ∀ N ∈ rs.map (·.1), N.In σ ∧ Matches σ symbols p N := by
    intro N hN
    obtain ⟨r, hr, rfl⟩ := List.mem_map.1 hN
    exact ⟨Matches.inGraph (a.sound r hr).1, (a.sound r hr).1⟩
  refine perm_of_counts (P := Matches σ' (renameSymbols f h symbols) p) ?_ ?_ ?_
  · intro M' hM'
    obtain ⟨M, hM, rfl⟩ := List.mem_map.1 hM'
    exact (S.matches hc hc' hp (hin M hM).1).2 (hin M hM).2
  · intro M hM
    obtain ⟨r, hr, rfl⟩ := List.mem_map.1 hM
    exact (b.sound r hr).1
  · intro M' hM'
    obtain ⟨M, hMin, rfl⟩ := S.match_preimage (Matches.inGraph hM')
    rw [count_rename S hMin (fun N hN => (hin N hN).1), b.count _ hM' (hu'.free_agree _), S.loops hc p hMin]
    exact a.count M ((S.matches hc hc' hp hMin).1 hM') (hu.free_agree _)

/-- Searches for a pattern that do not panic: what is reported is for the same matches, with the same repetitions, wherever the
two searches start. Names that are bound are bound to the same nodes. Missing: what is missing for C31. -/
theorem C73_searches_partial (hv : Spec.ValidHistory ops) (hv' : Spec.ValidHistory ops') {s s' : State} (hs : run ops = some s)
    (hs' : run ops' = some s') (S : (Spec.run ops).SameAs (Spec.run ops') f h) (symbols : Symbols) (p : Pattern)
    (hp : PatternOk (Spec.run ops) symbols p) (hu : UniqueNodeNames symbols p) (i j : Nat)
    (hi : Chosen s symbols p i) (hi1 : StartOk p i) (hh : StartRight ops symbols p i)
    (hj : Chosen s' (renameSymbols f h symbols) p j) (hj1 : StartOk p j)
    (hh' : StartRight ops' (renameSymbols f h symbols) p j)
    (hr : Pattern.run s symbols p ≠ none) (hr' : Pattern.run s' (renameSymbols f h symbols) p ≠ none) :
    ∃ rs rs' : List Answer,
      Pattern.run s symbols p = some (none, rs.map (·.2)) ∧
      Pattern.run s' (renameSymbols f h symbols) p = some (none, rs'.map (·.2)) ∧
      (∀ r ∈ rs, SymbolsShow (Spec.run ops).ends i p r.1 r.2.2) ∧
      (∀ r ∈ rs', SymbolsShow (Spec.run ops').ends j p r.1 r.2.2) ∧
      ((rs.map (·.1)).map (Match.rename f h)).Perm (rs'.map (·.1)) := by
  obtain ⟨rs, a1, a⟩ := counted_run hv hs hp hi hh hi1 hr
  obtain ⟨rs', b1, b⟩ := counted_run hv' hs' (hp.rename S) hj hh' hj1 hr'
  exact ⟨rs, rs', a1, b1, fun r hr => (a.sound r hr).2, fun r hr => (b.sound r hr).2,
    a.renamed S (Core.run hv hs).ends (Core.run hv' hs').ends hp b hu⟩

/-- The same without the assumption that the searches return. -/
theorem C73_search_partial (hv : Spec.ValidHistory ops) (hv' : Spec.ValidHistory ops') {s s' : State} (hs : run ops = some s)
    (hs' : run ops' = some s') (S : (Spec.run ops).SameAs (Spec.run ops') f h) (symbols : Symbols) (p : Pattern)
    (hp : PatternOk (Spec.run ops) symbols p) (hu : UniqueNodeNames symbols p) (i j : Nat)
    (hi : Chosen s symbols p i) (hi1 : StartOk p i) (hi2 : PathSafe p i) (hh : StartRight ops symbols p i)
    (hj : Chosen s' (renameSymbols f h symbols) p j) (hj1 : StartOk p j) (hj2 : PathSafe p j)
    (hh' : StartRight ops' (renameSymbols f h symbols) p j) :
    ∃ rs rs' : List Answer,
      Pattern.run s symbols p = some (none, rs.map (·.2)) ∧
      Pattern.run s' (renameSymbols f h symbols) p = some (none, rs'.map (·.2)) ∧
      (∀ r ∈ rs, SymbolsShow (Spec.run ops).ends i p r.1 r.2.2) ∧
      (∀ r ∈ rs', SymbolsShow (Spec.run ops').ends j p r.1 r.2.2) ∧
      ((rs.map (·.1)).map (Match.rename f h)).Perm (rs'.map (·.1)) :=
  C73_searches_partial hv hv' hs hs' S symbols p hp hu i j hi hi1 hh hj hj1 hh' (safe_run hv hs hp hi hh hi1 hi2)
    (safe_run hv' hs' (hp.rename S) hj hh' hj1 hj2)

end

/-! ## Graphs that are written and read back, and graphs that are copied -/

/-- A graph that consists of copies of all nodes and edges is the same graph. -/
theorem CopyInto.sameAs {σ σ0 σ' : Spec} {m : List (Nat × Nat)} {es : List Nat} (c : CopyOf (fun _ v => v) σ σ0 σ' m es)
    (w1 : σ0.nodes = []) (w2 : σ0.edges = [])
    (hn : σ.nodes.Nodup) (he : σ.edges.Nodup) (hn' : σ'.nodes.Nodup) (he' : σ'.edges.Nodup)
    (hm : (m.map Prod.fst).Perm σ.nodes) (hes : es.Perm σ.edges) :
    ∃ f h, σ.SameAs σ' f h ∧ ∀ n ∈ σ.nodes, AMap.get m n = some (f n) := by
  have hk : (m.map Prod.fst).Nodup := hm.nodup_iff.2 hn
  have hsnd : σ'.nodes = m.map Prod.snd := by rw [c.nodes, w1]; rfl
  have hval : (m.map Prod.snd).Nodup := hsnd ▸ hn'
  obtain ⟨es', h1, h2⟩ := c.edges
  have hed : σ'.edges = es' := by rw [h1, w2]; rfl
  have hen : es.Nodup := hes.nodup_iff.2 he
  have hen' : es'.Nodup := hed ▸ he'
  have hz : ∀ {xs ys : List Nat} {R : Nat → Nat → Prop}, List.Forall₂ R xs ys → (xs.zip ys).map Prod.fst = xs ∧
      (xs.zip ys).map Prod.snd = ys ∧ ∀ p ∈ xs.zip ys, R p.1 p.2 := by
    intro xs ys R hr
    induction hr with
    | nil => simp
    | cons hab _ ih =>
      refine ⟨by simp [ih.1], by simp [ih.2.1], ?_⟩
      intro p hp
      rcases List.mem_cons.1 hp with rfl | hp
      · exact hab
      · exact ih.2.2 p hp
  obtain ⟨z1, z2, z3⟩ := hz h2
  have inj : ∀ {l : List (Nat × Nat)}, (l.map Prod.snd).Nodup → ∀ {a b c : Nat}, (a, c) ∈ l → (b, c) ∈ l → a = b := by
    intro l
    induction l with
    | nil => intro _ a b c h; cases h
    | cons p l ih =>
      intro hnd a b c h1 h2
      simp only [List.map_cons, List.nodup_cons] at hnd
      rcases List.mem_cons.1 h1 with h1 | h1' <;> rcases List.mem_cons.1 h2 with h2 | h2'
      · rw [← h2] at h1; exact (Prod.mk.injEq .. ▸ h1).1
      · subst h1; exact absurd (List.mem_map_of_mem (f := Prod.snd) h2') hnd.1
      · subst h2; exact absurd (List.mem_map_of_mem (f := Prod.snd) h1') hnd.1
      · exact ih hnd.2 h1' h2'
  let f : Nat → Nat := fun n => (AMap.get m n).getD 0
  let h : Nat → Nat := fun e => (AMap.get (es.zip es') e).getD 0
  have hf : ∀ {p}, p ∈ m → f p.1 = p.2 := by
    intro p hp
    show (AMap.get m p.1).getD 0 = _
    rw [AMap.get_of_mem (m := m) hk hp]; rfl
  have hh : ∀ {p}, p ∈ es.zip es' → h p.1 = p.2 := by
    intro p hp
    show (AMap.get (es.zip es') p.1).getD 0 = _
    rw [AMap.get_of_mem (m := es.zip es') (by rw [AMap.keys, z1]; exact hen) hp]; rfl
  have hfm : ∀ n ∈ σ.nodes, (n, f n) ∈ m := by
    intro n hn
    obtain ⟨p, hp, rfl⟩ := List.mem_map.1 (hm.mem_iff.2 hn)
    rw [hf hp]; exact hp
  have hhm : ∀ e ∈ σ.edges, (e, h e) ∈ es.zip es' := by
    intro e he
    have hz' : e ∈ (es.zip es').map Prod.fst := by rw [z1]; exact hes.mem_iff.2 he
    obtain ⟨p, hp, rfl⟩ := List.mem_map.1 hz'
    rw [hh hp]; exact hp
  refine ⟨f, h, ⟨⟨fun n hn => ?_, fun a ha b hb hab => ?_, fun y hy => ?_⟩, ⟨fun e he => ?_, fun a ha b hb hab => ?_, fun y hy => ?_⟩,
    fun n hn l => c.labels _ (hfm n hn) l, fun n hn k => ?_, fun e he => ?_, fun e he => ?_, fun e he => (z3 _ (hhm e he)).label,
    fun e he k => ?_⟩, fun n hn => AMap.get_of_mem (m := m) hk (hfm n hn)⟩
  · rw [hsnd]; exact List.mem_map_of_mem (f := Prod.snd) (hfm n hn)
  · exact inj hval (hfm a ha) (hab ▸ hfm b hb)
  · rw [hsnd] at hy
    obtain ⟨p, hp, rfl⟩ := List.mem_map.1 hy
    exact ⟨p.1, hm.mem_iff.1 (List.mem_map_of_mem hp), hf hp⟩
  · rw [hed, ← z2]; exact List.mem_map_of_mem (f := Prod.snd) (hhm e he)
  · exact inj (by rw [z2]; exact hen') (hhm a ha) (hab ▸ hhm b hb)
  · rw [hed, ← z2] at hy
    obtain ⟨p, hp, rfl⟩ := List.mem_map.1 hy
    refine ⟨p.1, hes.mem_iff.1 ?_, hh hp⟩
    rw [← z1]; exact List.mem_map_of_mem hp
  · rw [c.nprop _ (hfm n hn) k, Option.map_id']
  · exact (hf (z3 _ (hhm e he)).src).symm
  · exact (hf (by simpa using (z3 _ (hhm e he)).dst)).symm
  · rw [(z3 _ (hhm e he)).eprop k, Option.map_id']

/-- Two abstract graphs that a graph shows. -/
theorem Spec.SameAs.shown {σ σ' τ : Spec} {f h : Nat → Nat} (S : σ.SameAs σ' f h) {s : State} (a : Shows s σ') (b : Shows s τ) (hc : EndsIn σ) :
    σ.SameAs τ f h := by
  have hn : τ.nodes = σ'.nodes := by
    have := a.nodes.symm.trans b.nodes
    simpa using this.symm
  obtain ⟨es, h1, h2⟩ := a.edges
  obtain ⟨es', h3, h4⟩ := b.edges
  rw [h1] at h3
  cases h3
  have he : ∀ e, e ∈ τ.edges ↔ e ∈ σ'.edges := fun e => by rw [← h4.mem_iff, h2.mem_iff]
  have hi := S.edges.1
  refine ⟨hn ▸ S.nodes, ⟨fun e h => (he _).2 (hi e h), S.edges.2.1, fun y hy => S.edges.2.2 y ((he y).1 hy)⟩, fun n hx l => ?_,
    fun n hx k => ?_, fun e hx => ?_, fun e hx => ?_, fun e hx => ?_, fun e hx k => ?_⟩
  · have hx' := S.nodes.1 n hx
    rw [← (b.labels _ (hn ▸ hx')).2, (a.labels _ hx').2, S.labels n hx]
  · have hx' := S.nodes.1 n hx
    rw [← b.nprop _ (hn ▸ hx'), a.nprop _ hx', S.nprop n hx]
  · have hx' := hi e hx
    rw [← (b.ends _ ((he _).2 hx')).1, (a.ends _ hx').1, S.src e hx]
  · have hx' := hi e hx
    rw [← (b.ends _ ((he _).2 hx')).2, (a.ends _ hx').2, S.dst e hx]
  · have hx' := hi e hx
    rw [← b.label _ ((he _).2 hx'), a.label _ hx', S.label e hx]
  · have hx' := hi e hx
    rw [← b.eprop _ ((he _).2 hx'), a.eprop _ hx', S.eprop e hx]

/-- What a history shows, if it is not spoiled by C01 and C04. -/
theorem run_shows {ops : List Op} (hv : Spec.ValidHistory ops) (hn : ListOk ops) (he : FiledOk ops) {s : State} (hs : run ops = some s) :
    Shows s (Spec.run ops) := by
  have c := Core.run hv hs
  obtain ⟨an, ae⟩ := C09 ops hv s hs
  obtain ⟨e1, e2⟩ := C04_filed_partial ops hv he s hs
  refine ⟨C01_safe_partial ops hv hn s hs, e2, c.count, e1, fun n hn => (an n hn).2.2, fun n hn => (an n hn).1,
    fun e he => (ae e he).2.2, fun e he => (ae e he).2.1, fun e he => (ae e he).1, fun n hn => ?_, fun n hn => ?_,
    ⟨c.nNodup, c.eNodup⟩, c.ends⟩
  · exact c.out_enum hn
  · exact c.inc_enum hn

/-- A graph that is written as JSON and read back answers as the original does: every question of `AnswersAlike` and
`ListsAlike`, the nodes and edges that have a property, and every search for a pattern under the conditions of C31, whatever indexes
the original has. Missing: what is missing for C39. -/
theorem C73_json_partial {ops : List Op} (hv : Spec.ValidHistory ops) (hc : ListOk ops) {s : State} (hs : run ops = some s)
    {c : Codec} (hr : FiledOk ops) {order : AMap Nat Nat → AMap Nat Nat} (ho : ∀ m, (order m).Perm m)
    (hi : InverseOn c (Spec.run ops)) (hne : c.separately = true → (Spec.run ops).nodes ≠ []) :
    ∃ ts s' f h, encode c order s = some (ts, true) ∧ decode c State.new ts = some (none, s') ∧
      AnswersAlike (Spec.run ops) f h s s' ∧ ListsAlike f h s s' ∧
      (NodeIndexSafe ops → ∀ k, Renamed f (s.getNodesWithProperty k) (s'.getNodesWithProperty k)) ∧
      (EdgeIndexIntact ops → ∀ k, Renamed h (s.getEdgesWithProperty k) (s'.getEdgesWithProperty k)) ∧
      ∀ symbols p, PatternOk (Spec.run ops) symbols p → UniqueNodeNames symbols p → ∀ i j,
        Chosen s symbols p i → StartOk p i → PathSafe p i → StartRight ops symbols p i →
        Chosen s' (renameSymbols f h symbols) p j → StartOk p j → PathSafe p j →
        ∃ rs rs' : List Answer, Pattern.run s symbols p = some (none, rs.map (·.2)) ∧
          Pattern.run s' (renameSymbols f h symbols) p = some (none, rs'.map (·.2)) ∧
          (∀ r ∈ rs, SymbolsShow (Spec.run ops).ends i p r.1 r.2.2) ∧
          ((rs.map (·.1)).map (Match.rename f h)).Perm (rs'.map (·.1)) := by
  have k := Core.run hv hs
  obtain ⟨ts, s', h1, h2, σ', m, es, hsh, hcp, hm, hes⟩ := C39_partial hv hc hs (c := c) (fun _ => hr) ho hi hne
  obtain ⟨ops', _, hv', hs', hR, _⟩ := C72_fresh h2
  obtain ⟨f, h, S0, _⟩ := CopyInto.sameAs hcp rfl rfl k.nNodup k.eNodup hsh.distinct.1 hsh.distinct.2 hm hes
  have S := S0.shown hsh (run_shows hv' hR.nodes hR.edges hs') k.ends
  refine ⟨ts, s', f, h, h1, h2, C73_always hv hv' hs hs' S, C73_lists_partial hv hv' hc hR.nodes hr hR.edges hs hs' S,
    fun hx key => C73_nodeProperty_partial hv hv' hc hR.nodes hx hR.nodeIx hs hs' S key,
    fun hx key => C73_edgeProperty_partial hv hv' hr hR.edges hx hR.edgeIx hs hs' S key,
    fun symbols p hp hu i j hi hi1 hi2 hh hj hj1 hj2 => ?_⟩
  obtain ⟨rs, rs', a1, a2, a3, _, a4⟩ := C73_search_partial hv hv' hs hs' S symbols p hp hu i j hi hi1 hi2 hh hj hj1 hj2
    (hR.at _ _ _)
  exact ⟨rs, rs', a1, a2, a3, a4⟩

/-- What two graphs that show the same graph answer. -/
structure ShownAlike (σ : Spec) (f h : Nat → Nat) (s s' : State) : Prop where
  nodes : Renamed f s.getNodes s'.getNodes
  edges : Renamed h s.getEdges s'.getEdges
  numNodes : s'.numNodes = s.numNodes
  numEdges : s'.numEdges = s.numEdges
  labels : ∀ n ∈ σ.nodes, ∀ l, l ∈ s'.nodeGetLabels (f n) ↔ l ∈ s.nodeGetLabels n
  nprop : ∀ n ∈ σ.nodes, ∀ k, s'.nodeProperty (f n) k = s.nodeProperty n k
  ends : ∀ e ∈ σ.edges, s'.edgeGetFrom (h e) = f (s.edgeGetFrom e) ∧ s'.edgeGetTo (h e) = f (s.edgeGetTo e)
  label : ∀ e ∈ σ.edges, s'.edgeGetLabel (h e) = s.edgeGetLabel e
  eprop : ∀ e ∈ σ.edges, ∀ k, s'.edgeProperty (h e) k = s.edgeProperty e k
  outgoing : ∀ n ∈ σ.nodes, Renamed h (s.nodeEdges n .outgoing) (s'.nodeEdges (f n) .outgoing)
  incoming : ∀ n ∈ σ.nodes, Renamed h (s.nodeEdges n .incoming) (s'.nodeEdges (f n) .incoming)

theorem Spec.SameAs.shownAlike {σ σ' : Spec} {f h : Nat → Nat} (S : σ.SameAs σ' f h) {s s' : State} (a : Shows s σ) (b : Shows s' σ') :
    ShownAlike σ f h s s' := by
  obtain ⟨es, h1, h2⟩ := a.edges
  obtain ⟨es', g1, g2⟩ := b.edges
  refine ⟨⟨_, _, a.nodes, b.nodes, S.nodes.perm a.distinct.1 b.distinct.1⟩,
    ⟨es, es', h1, g1, (h2.map h).trans ((S.edges.perm a.distinct.2 b.distinct.2).trans g2.symm)⟩, ?_, ?_, fun n hn l => ?_, fun n hn k => ?_,
    fun e he => ?_, fun e he => ?_, fun e he k => ?_, fun n hn => ?_, fun n hn => ?_⟩
  · rw [a.numNodes, b.numNodes, S.nodes.length_eq a.distinct.1 b.distinct.1]
  · rw [a.numEdges, b.numEdges, S.edges.length_eq a.distinct.2 b.distinct.2]
  · rw [(a.labels n hn).2, (b.labels _ (S.nodes.1 n hn)).2, S.labels n hn]
  · rw [a.nprop n hn, b.nprop _ (S.nodes.1 n hn), S.nprop n hn]
  · rw [(a.ends e he).1, (a.ends e he).2, (b.ends _ (S.edges.1 e he)).1, (b.ends _ (S.edges.1 e he)).2, S.src e he, S.dst e he]
    exact ⟨rfl, rfl⟩
  · rw [a.label e he, b.label _ (S.edges.1 e he), S.label e he]
  · rw [a.eprop e he, b.eprop _ (S.edges.1 e he), S.eprop e he]
  · obtain ⟨xs, k1, k2⟩ := a.outgoing n hn
    obtain ⟨ys, l1, l2⟩ := b.outgoing _ (S.nodes.1 n hn)
    exact Renamed.of_filter S.edges a.distinct.2 b.distinct.2
      (fun e he => by rw [Bool.eq_iff_iff]; simpa using (S.src_eq a.closed he hn).symm) k1 l1 k2 l2
  · obtain ⟨xs, k1, k2⟩ := a.incoming n hn
    obtain ⟨ys, l1, l2⟩ := b.incoming _ (S.nodes.1 n hn)
    exact Renamed.of_filter S.edges a.distinct.2 b.distinct.2
      (fun e he => by rw [Bool.eq_iff_iff]; simpa using (S.dst_eq a.closed he hn).symm) k1 l1 k2 l2

/-- A graph that was copied into an empty graph, with a function that keeps the property values: the copy answers as the original
does, after the call. Missing: what is missing for C37. -/
theorem C73_copy_partial {ops : List (Nat × Op)} {W : World} (hv : WSpec.ValidHistory ops) (hr : World.run ops = some W)
    {s t : Nat} (hst : s ≠ t) (hs : WSpec.Clean s ops) (ht : WSpec.Clean t (ops ++ [(t, .newNode [] [])]))
    (hn : (WSpec.run ops t).nodes = []) {W' : World} {m : AMap Nat Nat} (h : W.copyGraph s t (fun _ v => v) = some (W', m)) :
    ∃ f g, ShownAlike (WSpec.run ops s) f g (W'.view s) (W'.view t) ∧ ∀ n ∈ (WSpec.run ops s).nodes, m.get n = some (f n) := by
  obtain ⟨σ', es, hc, hcp, hm, hes⟩ := C37_partial hv hr hst hs h
  have a := hc.othersShow s hst hs
  have b := hc.shows ht
  have k := (World.Rep.init.runFrom hv hr).core t
  have he : (WSpec.run ops t).edges = [] := by
    cases hE : (WSpec.run ops t).edges with
    | nil => rfl
    | cons e es =>
      have hin : (WSpec.run ops t).src e ∈ (WSpec.run ops t).nodes := (k.ends e (by show e ∈ (WSpec.run ops t).edges; rw [hE]; simp)).1
      rw [hn] at hin
      cases hin
  obtain ⟨f, g, S, hf⟩ := CopyInto.sameAs hcp hn he a.distinct.1 a.distinct.2 b.distinct.1 b.distinct.2 (by rw [hm]) hes
  exact ⟨f, g, S.shownAlike a b, hf⟩

/-! ## Cases -/

/-- Two programs that build the same graph: in another order, with other identities, and with an index. -/
def oneWayOps : List Op :=
  [.newNode ["A"] [("x", .int 1)], .newNode ["B"] [], .newEdge 0 1 "e" [("w", .int 2)], .newEdge 1 1 "l" []]

def otherWayOps : List Op :=
  [.addNodeIndex "x" .hash, .newNode ["B", "C"] [], .newNode [] [], .newNode ["A"] [("x", .int 7)], .newEdge 0 0 "l" [],
   .setNodeProp 2 "x" (.int 1), .setLabels 0 ["B"], .newEdge 2 0 "e" [("w", .int 2)], .detachRemove 1]

def toOther (n : Nat) : Nat := if n = 0 then 2 else 0

def toOtherEdge (e : Nat) : Nat := if e = 2 then 4 else 3

theorem otherWay_same : (Spec.run oneWayOps).SameAs (Spec.run otherWayOps) toOther toOtherEdge := by
  have h : (Spec.run oneWayOps).nodes = [0, 1] ∧ (Spec.run oneWayOps).edges = [2, 3] ∧ (Spec.run otherWayOps).nodes = [0, 2] ∧
      (Spec.run otherWayOps).edges = [3, 4] := by decide +kernel
  obtain ⟨h1, h2, h3, h4⟩ := h
  constructor
  · rw [h1, h3]; unfold BijOn; decide
  · rw [h2, h4]; unfold BijOn; decide
  all_goals first | rw [h1] | rw [h2]
  all_goals simp only [List.mem_cons, List.not_mem_nil, or_false, forall_eq_or_imp, forall_eq]
  all_goals refine ⟨?_, ?_⟩
  all_goals first
    | decide +kernel
    | (intro l; simp [oneWayOps, otherWayOps, Spec.run, Spec.runFrom, Spec.step, Spec.new, Spec.detach, toOther, toOtherEdge, upd, AMap.get] <;> grind)

example : Spec.ValidHistory oneWayOps ∧ Spec.ValidHistory otherWayOps ∧ ListOk oneWayOps ∧ ListOk otherWayOps ∧
    FiledOk oneWayOps ∧ FiledOk otherWayOps ∧ NodeIndexSafe otherWayOps ∧
    (run oneWayOps).bind State.getNodes = some [0, 1] ∧ (run otherWayOps).bind State.getNodes = some [0, 2] := by decide +kernel

/-- The two programs get the same matches for a pattern: a named node with a property, and an edge to a node. -/
example : (run oneWayOps).bind (fun s => (Pattern.run s [] [{ name := "a", props := [("x", .int 1)] }, {}, { name := "b" }]).map
      (fun o => o.2.map (fun r => (r.1, AMap.get r.2 "a", AMap.get r.2 "b")))) =
      some [({ path := [⟨2, false⟩] }, some (.node 0), some (.node 1))] ∧
    (run otherWayOps).bind (fun s => (Pattern.run s [] [{ name := "a", props := [("x", .int 1)] }, {}, { name := "b" }]).map
      (fun o => o.2.map (fun r => (r.1, AMap.get r.2 "a", AMap.get r.2 "b")))) =
      some [({ path := [⟨4, false⟩] }, some (.node 2), some (.node 0))] ∧
    toOther 0 = 2 ∧ toOther 1 = 0 ∧ toOtherEdge 2 = 4 := by decide +kernel

/-- A copy into an empty graph. -/
example : let ops : List (Nat × Op) := [(0, .newNode ["A"] [("x", .int 1)]), (0, .newNode [] []), (0, .newEdge 0 1 "e" [])]
    WSpec.ValidHistory ops ∧ WSpec.Clean 0 ops ∧ WSpec.Clean 1 (ops ++ [(1, .newNode [] [])]) ∧ (WSpec.run ops 1).nodes = [] ∧
    (World.run ops).isSome := by decide +kernel

/-- Two programs that build the same graph of two nodes: after the one, `GetNodes` lists one node only. -/
theorem C73_false : ¬ ∀ ops ops' f h, Spec.ValidHistory ops → Spec.ValidHistory ops' →
    (Spec.run ops).SameAs (Spec.run ops') f h → ∀ s s', run ops = some s → run ops' = some s' → ListsAlike f h s s' := by
  intro hall
  have w : Spec.ValidHistory [.newNode [] [], .newNode [] []] ∧
      Spec.ValidHistory [.newNode [] [], .newNode [] [], .detachRemove 1, .newNode [] []] ∧
      (run [.newNode [] [], .newNode [] []]).bind State.getNodes = some [0, 1] ∧
      (run [.newNode [] [], .newNode [] [], .detachRemove 1, .newNode [] []]).bind State.getNodes = some [0] := by
    decide +kernel
  obtain ⟨h1, h2, h3, h4⟩ := w
  obtain ⟨s, hs, h3⟩ := Option.bind_eq_some_iff.1 h3
  obtain ⟨s', hs', h4⟩ := Option.bind_eq_some_iff.1 h4
  have S : (Spec.run [.newNode [] [], .newNode [] []]).SameAs
      (Spec.run [.newNode [] [], .newNode [] [], .detachRemove 1, .newNode [] []]) (fun n => 2 * n) id := by
    have h : (Spec.run [.newNode [] [], .newNode [] []]).nodes = [0, 1] ∧ (Spec.run [.newNode [] [], .newNode [] []]).edges = [] ∧
      (Spec.run [.newNode [] [], .newNode [] [], .detachRemove 1, .newNode [] []]).nodes = [0, 2] ∧
      (Spec.run [.newNode [] [], .newNode [] [], .detachRemove 1, .newNode [] []]).edges = [] := by decide +kernel
    obtain ⟨h1, h2, h3, h4⟩ := h
    constructor
    · rw [h1, h3]; unfold BijOn; decide
    · rw [h2, h4]; unfold BijOn; simp
    · rw [h1]
      simp [Spec.run, Spec.runFrom, Spec.step, Spec.new, Spec.detach, upd]
    · rw [h1]
      simp [Spec.run, Spec.runFrom, Spec.step, Spec.new, Spec.detach, upd, AMap.get]
    all_goals rw [h2]; simp
  obtain ⟨xs, ys, a1, a2, a3⟩ := (hall _ _ _ _ h1 h2 S s s' hs hs').nodes
  rw [h3] at a1; cases a1
  rw [h4] at a2; cases a2
  have := a3.length_eq
  simp at this

end LPG
