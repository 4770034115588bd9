import Verif.Proofs.PatternAnswer
/-!
# C29, C30 what a pattern matches; C31 the start does not matter; C32 the path; C33 names
-/
namespace LPG
open Pat

/-- The planner starts at the item with this index. -/
def Chosen (s : State) (symbols : Symbols) (p : Pattern) (index : Nat) : Prop :=
  ∃ itr, getFastestElement s symbols p = some (itr, index)

/-- No name is used twice, except for names bound by the caller. -/
def UniqueNames (symbols : Symbols) (p : Pattern) : Prop :=
  ∀ i, i < p.length → ∀ j, j < p.length → i ≠ j → (itemAt p i).name = (itemAt p j).name → (itemAt p i).name ≠ "" →
    (AMap.get symbols (itemAt p i).name).isSome

instance (symbols : Symbols) (p : Pattern) : Decidable (UniqueNames symbols p) := by unfold UniqueNames; infer_instance

theorem UniqueNames.agree {symbols : Symbols} {p : Pattern} (h : UniqueNames symbols p) (M : Match) :
    NamesAgree symbols p M := by
  intro i j hi hj heq hne hfree
  by_cases hij : i = j
  · rw [hij]
  · have := h i hi j hj hij heq hne
    rw [hfree] at this
    cases this

/-- Every edge item matches one edge, from left to right. Then every start is a right one. -/
def OneWay (p : Pattern) : Prop :=
  ∀ i, i < p.length → i % 2 = 1 → itemDir (itemAt p i) = .outgoing ∧ (itemAt p i).min = 1 ∧ (itemAt p i).max = 1

instance (p : Pattern) : Decidable (OneWay p) := by unfold OneWay; infer_instance

theorem OneWay.startOk {p : Pattern} (h : OneWay p) {index : Nat} (hi : index < p.length) : StartOk p index := by
  intro ho
  obtain ⟨a, b, c⟩ := h index hi ho
  exact ⟨by rw [a]; simp, c, by omega⟩

theorem OneWay.pathOk {p : Pattern} (h : OneWay p) {index : Nat} (hi : index < p.length) : PathOk p index :=
  ⟨fun i hlt ho => (h i (by omega) ho).2.2, fun ho => (h index hi ho).1⟩

theorem OneWay.noTwice {σ : Spec} {p : Pattern} (h : OneWay p) : NoTwice σ p := by
  intro i hi ho ha
  rw [(h i hi ho).1] at ha
  cases ha

theorem Pat.PathOk.safe {p : Pattern} {index : Nat} (h : PathOk p index) : PathSafe p index :=
  ⟨fun i _ hlt ho => h.fixed i hlt ho, fun ho => Or.inl (h.start ho)⟩

/-- The search that the planner chooses. -/
theorem planned {ops : List Op} (hv : Spec.ValidHistory ops) {s : State} (hs : run ops = some s)
    {symbols : Symbols} {p : Pattern} (hp : PatternOk (Spec.run ops) symbols p) {index : Nat} (hc : Chosen s symbols p index)
    (hh : StartRight ops symbols p index) (hst : StartOk p index) (hsafe : PathSafe p index) :
    ∃ rs : List Answer, Pattern.run s symbols p = some (none, rs.map (·.2)) ∧
      (∀ r ∈ rs, Matches (Spec.run ops) symbols p r.1 ∧ SymbolsShow (Spec.run ops).ends index p r.1 r.2.2 ∧
        (PathOk p index → PathShows (Spec.run ops).ends r.1 r.2.1)) ∧
      (∀ M, Matches (Spec.run ops) symbols p M → NamesAgree symbols p M → M ∈ rs.map (·.1)) ∧
      (NoTwice (Spec.run ops) p → (rs.map (·.1)).Nodup) := by
  obtain ⟨itr, hc⟩ := hc
  obtain ⟨xs, rfl, hn, E⟩ := chosen_exact hv hs hp hc hh hst
  obtain ⟨rs, h1, h2, h3, h4⟩ := answers hv hs E hsafe
  refine ⟨rs, ?_, h2, h3, fun h => h4 h hn⟩
  unfold Pattern.run
  rw [hc]
  exact h1

/-- The values in the history are not wrappers of wrappers. -/
def FlatOp : Op → Prop
  | .newNode _ ps => ∀ kv ∈ ps, kv.2.Flat
  | .newEdge _ _ _ ps => ∀ kv ∈ ps, kv.2.Flat
  | .setNodeProp _ _ v => v.Flat
  | .setEdgeProp _ _ v => v.Flat
  | _ => True

instance (op : Op) : Decidable (FlatOp op) := by cases op <;> unfold FlatOp <;> infer_instance

theorem props_get_mem {ps : AMap String Value} : ∀ {k : String} {v : Value}, AMap.get ps k = some v → (k, v) ∈ ps := by
  induction ps with
  | nil => intro k v h; simp [AMap.get] at h
  | cons a ps ih =>
    intro k v h
    obtain ⟨k', v'⟩ := a
    simp only [AMap.get] at h
    split at h
    · rename_i hk
      cases h
      subst hk
      simp
    · simp [ih h]

theorem flat_step {σ : Spec} {op : Op} (h : FlatOp op) (hn : ∀ n k w, σ.nprop n k = some w → w.Flat)
    (he : ∀ e k w, σ.eprop e k = some w → w.Flat) :
    (∀ n k w, (σ.step op).nprop n k = some w → w.Flat) ∧ ∀ e k w, (σ.step op).eprop e k = some w → w.Flat := by
  cases op <;> simp only [Spec.step, FlatOp, Spec.detach, Spec.dropEdge] at h ⊢ <;> refine ⟨fun n k w hw => ?_, fun n k w hw => ?_⟩ <;>
    try simp only [upd_apply] at hw
  all_goals first
    | exact hn n k w hw
    | exact he n k w hw
    | skip
  all_goals split at hw
  all_goals first
    | exact hn _ _ _ hw
    | exact he _ _ _ hw
    | exact h _ (props_get_mem hw)
    | skip
  all_goals simp only [upd_apply] at hw
  all_goals split at hw
  all_goals first
    | exact hn _ _ _ hw
    | exact he _ _ _ hw
    | (cases hw; done)
    | (cases hw; exact h)

theorem flat_run {ops : List Op} (h : ∀ op ∈ ops, FlatOp op) :
    (∀ n k w, (Spec.run ops).nprop n k = some w → w.Flat) ∧ ∀ e k w, (Spec.run ops).eprop e k = some w → w.Flat := by
  have : ∀ (ops : List Op) (σ : Spec), (∀ op ∈ ops, FlatOp op) → (∀ n k w, σ.nprop n k = some w → w.Flat) →
      (∀ e k w, σ.eprop e k = some w → w.Flat) → (∀ n k w, (Spec.runFrom σ ops).nprop n k = some w → w.Flat) ∧
        ∀ e k w, (Spec.runFrom σ ops).eprop e k = some w → w.Flat := by
    intro ops
    induction ops with
    | nil => intro σ _ a b; exact ⟨a, b⟩
    | cons op ops ih =>
      intro σ h a b
      obtain ⟨a', b'⟩ := flat_step (h op (by simp)) a b
      exact ih (σ.step op) (fun o ho => h o (by simp [ho])) a' b'
  exact this ops Spec.new h (by intro n k w h; cases h) (by intro n k w h; cases h)

/-- Patterns without names bound by the caller. -/
theorem PatternOk.free_symbols {ops : List Op} {p : Pattern} (hf : ∀ op ∈ ops, FlatOp op) (h1 : p.length % 2 = 1)
    (h2 : ∀ i, i < p.length → i % 2 = 1 → (itemAt p i).labels.Nodup)
    (h3 : ∀ i, i < p.length → ∀ j, j < p.length → i % 2 = 0 → j % 2 = 1 → (itemAt p i).name = (itemAt p j).name →
      (itemAt p i).name = "")
    (h4 : ∀ i, i < p.length → ∀ kv ∈ (itemAt p i).props, kv.2.Flat) : PatternOk (Spec.run ops) [] p :=
  ⟨h1, h2, fun i _ _ _ sym hg => (by cases hg), fun i j hi hj => h3 i hi j hj, fun i _ _ _ => rfl,
    fun i hi k v hk => h4 i hi (k, v) hk, fun n _ => (flat_run hf).1 n, fun e _ => (flat_run hf).2 e⟩

/-! ## C29 -/

/-- C29 for one history: every report is for a match of the pattern. -/
def C29_statement (ops : List Op) : Prop :=
  ∀ s, run ops = some s → ∀ symbols p e out, Pattern.run s symbols p = some (e, out) →
    ∀ r ∈ out, ∃ M start, Matches (Spec.run ops) symbols p M ∧ SymbolsShow (Spec.run ops).ends start p M r.2

/-- C29 for well-formed patterns, if the start is a node item or a directed edge item for one edge: the search ends without an
error and every report is for a match. Missing: other starts (`C29_false_zero`), names bound to edges (`C29_false_bound`) and
histories that break the iterators over all nodes or all edges. -/
theorem C29_partial (ops : List Op) (hv : Spec.ValidHistory ops) (s : State) (hs : run ops = some s)
    (symbols : Symbols) (p : Pattern) (hp : PatternOk (Spec.run ops) symbols p) (index : Nat) (hc : Chosen s symbols p index)
    (hh : StartRight ops symbols p index)
    (hst : StartOk p index) (hsafe : PathSafe p index) :
    ∃ out, Pattern.run s symbols p = some (none, out) ∧
      ∀ r ∈ out, ∃ M, Matches (Spec.run ops) symbols p M ∧ SymbolsShow (Spec.run ops).ends index p M r.2 := by
  obtain ⟨rs, h1, h2, _⟩ := planned hv hs hp hc hh hst hsafe
  refine ⟨_, h1, fun r hr => ?_⟩
  obtain ⟨a, ha, rfl⟩ := List.mem_map.1 hr
  exact ⟨a.1, (h2 a ha).1, (h2 a ha).2.1⟩

/-- A planner that is free to choose among the right starts: the report is right for every choice. -/
theorem C29_anyStart_partial (ops : List Op) (hv : Spec.ValidHistory ops) (s : State) (hs : run ops = some s)
    (symbols : Symbols) (p : Pattern) (xs : List Nat) (index : Nat) (E : Exact (Spec.run ops) symbols p xs index)
    (hsafe : PathSafe p index) :
    ∃ out, Pat.runFrom s symbols p (some xs) index = some (none, out) ∧
      ∀ r ∈ out, ∃ M, Matches (Spec.run ops) symbols p M ∧ SymbolsShow (Spec.run ops).ends index p M r.2 := by
  obtain ⟨rs, h1, h2, _⟩ := answers hv hs E hsafe
  refine ⟨_, h1, fun r hr => ?_⟩
  obtain ⟨a, ha, rfl⟩ := List.mem_map.1 hr
  exact ⟨a.1, (h2 a ha).1, (h2 a ha).2.1⟩

/-- Two nodes and an edge in turn: what is reported for three nodes in a row. -/
def rowOps : List Op :=
  [.newNode ["A"] [], .newNode ["B"] [], .newNode ["C"] [], .newEdge 0 1 "x" [], .newEdge 1 2 "y" []]

/-- A graph with an index, for the examples. -/
def searchOps : List Op :=
  [.newNode ["A"] [("h", .int 1)], .newNode ["B"] [], .newNode ["B", "C"] [("h", .int 2)], .newNode ["A"] [("h", .int 2)],
   .addNodeIndex "h" .hash, .newEdge 0 1 "x" [], .newEdge 1 2 "y" [], .newEdge 3 1 "x" [("w", .int 1)], .newEdge 2 2 "y" [],
   .newEdge 1 3 "y" []]

/-- Two edges in a row, with labels, properties and names. -/
def searchPattern : Pattern :=
  [{ name := "a", labels := ["A"] }, { name := "e", labels := ["x"] }, { name := "b" }, { name := "f", labels := ["y"] },
   { props := [("h", .int 2)] }]

/-- A trail of one or more edges before a node with a property that is found through the index. -/
def trailPattern : Pattern :=
  [{ name := "a", labels := ["B"] }, { name := "t", min := 1, max := -1, undirected := true, labels := ["x", "y"] },
   { name := "b", props := [("h", .int 1)] }]

theorem searchOps_ok : Spec.ValidHistory searchOps ∧ StartsRight searchOps ∧ (∀ op ∈ searchOps, FlatOp op) :=
  ⟨by decide +kernel, ⟨by decide +kernel, by decide +kernel, by decide +kernel, by decide +kernel⟩, by decide +kernel⟩

theorem searchPattern_ok : PatternOk (Spec.run searchOps) [] searchPattern :=
  PatternOk.free_symbols searchOps_ok.2.2 (by decide) (by decide) (by decide) (by decide +kernel)

theorem trailPattern_ok : PatternOk (Spec.run searchOps) [] trailPattern :=
  PatternOk.free_symbols searchOps_ok.2.2 (by decide) (by decide) (by decide) (by decide +kernel)

/-- The hypotheses of C29 to C33 hold, and there is something to report. -/
example : UniqueNames [] searchPattern ∧ OneWay searchPattern ∧
    (run searchOps).bind (fun s => (getFastestElement s [] searchPattern).map (·.2)) = some 0 ∧
    (run searchOps).bind (fun s => (Pattern.run s [] searchPattern).map (fun o => (o.1, o.2.map (·.1)))) =
      some (none, [{ path := [⟨4, false⟩, ⟨5, false⟩] }, { path := [⟨4, false⟩, ⟨8, false⟩] },
        { path := [⟨6, false⟩, ⟨5, false⟩] }, { path := [⟨6, false⟩, ⟨8, false⟩] }]) := by decide +kernel

example : (run searchOps).bind (fun s => (getFastestElement s [] trailPattern).map (·.2)) = some 2 ∧ StartOk trailPattern 2 ∧
    UniqueNames [] trailPattern := ⟨by decide +kernel, fun h => (by cases h), by decide⟩

example : PathSafe trailPattern 2 := ⟨fun i h1 h2 => (by omega), fun h => (by cases h)⟩

/-- The conditions for a start, for the examples. -/
example : StartOk searchPattern 0 ∧ PathOk searchPattern 0 ∧ PathSafe searchPattern 3 ∧ NoTwice (Spec.run searchOps) searchPattern :=
  have h : OneWay searchPattern := by decide
  ⟨h.startOk (by decide), h.pathOk (by decide), (h.pathOk (by decide)).safe, h.noTwice⟩

/-- C29 fails: if the search starts at an edge item, the bounds of its length are not looked at. -/
theorem C29_false_zero : ¬ ∀ ops, Spec.ValidHistory ops → C29_statement ops := by
  intro h
  have w : Spec.ValidHistory rowOps ∧
      (run rowOps).bind (fun s => (Pattern.run s [] [{}, { min := 0, max := 0 }, {}]).map (fun o => o.2.length)) = some 2 := by
    decide +kernel
  obtain ⟨h1, h2⟩ := w
  obtain ⟨s, hs, h2⟩ := Option.bind_eq_some_iff.1 h2
  obtain ⟨o, ho, h2⟩ := Option.map_eq_some_iff.1 h2
  obtain ⟨e, out⟩ := o
  cases out with
  | nil => simp at h2
  | cons r out =>
    obtain ⟨M, _, ⟨_, hM⟩, _⟩ := h rowOps h1 s hs _ _ _ _ ho r (by simp)
    have := hM 1 (by decide)
    rw [if_neg (by decide)] at this
    obtain ⟨a, es, b, _, _, _, f1, _, _, _, ⟨_, f2⟩, _⟩ := this
    have : es.length = 0 := by
      simp only [itemAt, List.getD_cons_succ, List.getD_cons_zero] at f2
      omega
    exact f1 (List.length_eq_zero_iff.1 this)

/-- C29 fails: a name bound to a set of edges does not restrict the edges, if the search starts elsewhere. -/
theorem C29_false_bound : ¬ ∀ ops, Spec.ValidHistory ops → C29_statement ops := by
  intro h
  have w : Spec.ValidHistory rowOps ∧ ∀ s, run rowOps = some s → (Pattern.run s [("e", { edges := some [3] })]
        [{ labels := ["B"] }, { name := "e" }, {}]) =
      some (none, [({ path := [⟨4, false⟩] }, [("e", .path { path := [⟨4, false⟩] })])]) := by
    constructor
    · decide +kernel
    · intro s hs
      have : (run rowOps).bind (fun s => Pattern.run s [("e", { edges := some [3] })]
          [{ labels := ["B"] }, { name := "e" }, {}]) =
        some (none, [({ path := [⟨4, false⟩] }, [("e", .path { path := [⟨4, false⟩] })])]) := by decide +kernel
      rw [hs] at this
      exact this
  obtain ⟨h1, h2⟩ := w
  cases hs : run rowOps with
  | none => revert hs; decide +kernel
  | some s =>
    obtain ⟨M, start, ⟨_, hM⟩, hS⟩ := h rowOps h1 s hs _ _ _ _ (h2 s hs) _ (List.mem_singleton.2 rfl)
    have := hM 1 (by decide)
    rw [if_neg (by decide)] at this
    obtain ⟨a, es, b, m0, m1, m2, f1, _, _, _, ⟨f2, f3⟩, f4⟩ := this
    obtain ⟨ys, y1, y2⟩ := f4 (by decide) { edges := some [3] } rfl
    cases y1
    obtain ⟨_, i, hi, hin, hshow⟩ := (hS "e").1 (.path { path := [⟨4, false⟩] }) rfl
    have hi1 : i = 1 := by
      have : i = 0 ∨ i = 1 ∨ i = 2 := by simp only [List.length_cons, List.length_nil] at hi; omega
      rcases this with rfl | rfl | rfl
      · exact absurd hin (by decide)
      · rfl
      · exact absurd hin (by decide)
    subst hi1
    have hmem : 4 ∈ es := by
      rcases hshow with ⟨n, _, hx⟩ | ⟨a', es', b', q, k0, k1, k2, hx, v1, v2, v3⟩
      · cases hx
      · cases hx
        rw [m1] at k1
        cases k1
        rcases Nat.lt_trichotomy start 1 with hlt | heq | hgt
        · obtain ⟨_, hv, _⟩ := v1 hlt
          rw [← hv]; simp
        · have := v3 heq.symm
          have hm : ([⟨4, false⟩] : List PathElement) = es.map (fun e => ⟨e, false⟩) := congrArg Path.path this
          have : (4 : Nat) ∈ (es.map (fun e => (⟨e, false⟩ : PathElement))).map (·.edge) := by rw [← hm]; simp
          simpa using this
        · obtain ⟨_, hv, _⟩ := v2 hgt
          have : (4 : Nat) ∈ es.reverse := by rw [← hv]; simp
          exact List.mem_reverse.1 this
    exact absurd (y2 4 hmem) (by decide)

/-! ## C30 -/

/-- C30 for one history: the search ends without an error, every report is for a match, and every match that respects the
names is reported once. -/
def C30_statement (ops : List Op) : Prop :=
  ∀ s, run ops = some s → ∀ symbols p, p.length % 2 = 1 → ∃ rs : List Answer,
    Pattern.run s symbols p = some (none, rs.map (·.2)) ∧
    (∀ r ∈ rs, Matches (Spec.run ops) symbols p r.1 ∧ ∃ start, SymbolsShow (Spec.run ops).ends start p r.1 r.2.2) ∧
    ∀ M, Matches (Spec.run ops) symbols p M → NamesAgree symbols p M → (rs.map (·.1)).count M = 1

/-- C30 under the conditions of C29, if there are no loops for undirected items that match one edge. Missing: such loops, which
are reported twice (`C30_false_loop`), and undirected starts (`C30_false_undirected`). -/
theorem C30_partial (ops : List Op) (hv : Spec.ValidHistory ops) (s : State) (hs : run ops = some s)
    (symbols : Symbols) (p : Pattern) (hp : PatternOk (Spec.run ops) symbols p) (index : Nat) (hc : Chosen s symbols p index)
    (hh : StartRight ops symbols p index)
    (hst : StartOk p index) (hsafe : PathSafe p index) (hx : NoTwice (Spec.run ops) p) : ∃ rs : List Answer,
    Pattern.run s symbols p = some (none, rs.map (·.2)) ∧
    (∀ r ∈ rs, Matches (Spec.run ops) symbols p r.1 ∧ SymbolsShow (Spec.run ops).ends index p r.1 r.2.2) ∧
    ∀ M, Matches (Spec.run ops) symbols p M → NamesAgree symbols p M → (rs.map (·.1)).count M = 1 := by
  obtain ⟨rs, h1, h2, h3, h4⟩ := planned hv hs hp hc hh hst hsafe
  refine ⟨rs, h1, fun r hr => ⟨(h2 r hr).1, (h2 r hr).2.1⟩, fun M hM hN => ?_⟩
  exact (h4 hx).count.trans (if_pos (h3 M hM hN))

/-- Also with loops every match is reported, and if no name is used twice only matches are. -/
theorem C30_all_partial (ops : List Op) (hv : Spec.ValidHistory ops) (s : State) (hs : run ops = some s)
    (symbols : Symbols) (p : Pattern) (hp : PatternOk (Spec.run ops) symbols p) (index : Nat) (hc : Chosen s symbols p index)
    (hh : StartRight ops symbols p index)
    (hst : StartOk p index) (hsafe : PathSafe p index) (hu : UniqueNames symbols p) : ∃ rs : List Answer,
    Pattern.run s symbols p = some (none, rs.map (·.2)) ∧
    (∀ r ∈ rs, SymbolsShow (Spec.run ops).ends index p r.1 r.2.2) ∧
    ∀ M, M ∈ rs.map (·.1) ↔ Matches (Spec.run ops) symbols p M := by
  obtain ⟨rs, h1, h2, h3, h4⟩ := planned hv hs hp hc hh hst hsafe
  refine ⟨rs, h1, fun r hr => (h2 r hr).2.1, fun M => ⟨fun hM => ?_, fun hM => h3 M hM (hu.agree M)⟩⟩
  obtain ⟨r, hr, rfl⟩ := List.mem_map.1 hM
  exact (h2 r hr).1

/-- Patterns of single edges from left to right, whatever the planner chooses: the reports are the matches, once each, with
the right path. -/
theorem C30_oneWay_partial (ops : List Op) (hv : Spec.ValidHistory ops) (hh : StartsRight ops) (s : State)
    (hs : run ops = some s) (symbols : Symbols) (p : Pattern) (hp : PatternOk (Spec.run ops) symbols p) (ho : OneWay p)
    (hu : UniqueNames symbols p)
    (hix : ∀ q ∈ p, State.propIters s.nodeIx q.props ≠ none ∧ State.propIters s.edgeIx q.props ≠ none) :
    ∃ rs : List Answer, ∃ start, Pattern.run s symbols p = some (none, rs.map (·.2)) ∧
    (∀ r ∈ rs, SymbolsShow (Spec.run ops).ends start p r.1 r.2.2 ∧ PathShows (Spec.run ops).ends r.1 r.2.1) ∧
    (rs.map (·.1)).Nodup ∧ ∀ M, M ∈ rs.map (·.1) ↔ Matches (Spec.run ops) symbols p M := by
  have hne : p ≠ [] := by intro h0; have := hp.odd; rw [h0] at this; simp at this
  obtain ⟨itr, index, hc⟩ := chosen_of hv hh hs (symbols := symbols) hne hix
  have hlt := (getFastest_spec hc).1
  obtain ⟨rs, h1, h2, h3, h4⟩ := planned hv hs hp ⟨itr, hc⟩ (hh.at symbols p index) (ho.startOk hlt) (ho.pathOk hlt).safe
  refine ⟨rs, index, h1, fun r hr => ⟨(h2 r hr).2.1, (h2 r hr).2.2 (ho.pathOk hlt)⟩, h4 ho.noTwice,
    fun M => ⟨fun hM => ?_, fun hM => h3 M hM (hu.agree M)⟩⟩
  obtain ⟨r, hr, rfl⟩ := List.mem_map.1 hM
  exact (h2 r hr).1

/-- The first edge item may be for any trails, in any direction. All other edge items are for one edge, from left to right. -/
def TrailFirst (p : Pattern) : Prop :=
  ∀ i, i < p.length → i % 2 = 1 → (i = 1 ∧ Several (itemAt p i)) ∨
    (itemDir (itemAt p i) = .outgoing ∧ (itemAt p i).min = 1 ∧ (itemAt p i).max = 1)

instance (p : Pattern) : Decidable (TrailFirst p) := by unfold TrailFirst; infer_instance

/-- Patterns that begin with a trail, whatever the planner chooses: the search does not start at the trail, and the reports are
the matches, once each. -/
theorem C30_trailFirst_partial (ops : List Op) (hv : Spec.ValidHistory ops) (hh : StartsRight ops) (s : State)
    (hs : run ops = some s) (symbols : Symbols) (p : Pattern) (hp : PatternOk (Spec.run ops) symbols p) (ht : TrailFirst p)
    (hu : UniqueNames symbols p)
    (hix : ∀ q ∈ p, State.propIters s.nodeIx q.props ≠ none ∧ State.propIters s.edgeIx q.props ≠ none) :
    ∃ rs : List Answer, ∃ start, Pattern.run s symbols p = some (none, rs.map (·.2)) ∧
    (∀ r ∈ rs, SymbolsShow (Spec.run ops).ends start p r.1 r.2.2) ∧
    (rs.map (·.1)).Nodup ∧ ∀ M, M ∈ rs.map (·.1) ↔ Matches (Spec.run ops) symbols p M := by
  have hne : p ≠ [] := by intro h0; have := hp.odd; rw [h0] at this; simp at this
  obtain ⟨itr, index, hc⟩ := chosen_of hv hh hs (symbols := symbols) hne hix
  have hlt := (getFastest_spec hc).1
  have hone : index % 2 = 1 → itemDir (itemAt p index) = .outgoing ∧ (itemAt p index).min = 1 ∧ (itemAt p index).max = 1 := by
    intro ho
    rcases ht index hlt ho with ⟨_, h⟩ | h
    · exact absurd h (chosen_single hc ho)
    · exact h
  have hst : StartOk p index := fun ho => ⟨by rw [(hone ho).1]; simp, (hone ho).2.2, by have := (hone ho).2.1; omega⟩
  have hsafe : PathSafe p index := ⟨fun i h3 hlt' ho => by
    rcases ht i (by omega) ho with ⟨h1, _⟩ | h
    · omega
    · exact h.2.2, fun ho => Or.inl (hone ho).1⟩
  have htw : NoTwice (Spec.run ops) p := by
    intro i hi ho ha h11
    rcases ht i hi ho with ⟨_, h⟩ | h
    · unfold Several at h; omega
    · rw [h.1] at ha; cases ha
  obtain ⟨rs, h1, h2, h3, h4⟩ := planned hv hs hp ⟨itr, hc⟩ (hh.at symbols p index) hst hsafe
  refine ⟨rs, index, h1, fun r hr => (h2 r hr).2.1, h4 htw, fun M => ⟨fun hM => ?_, fun hM => h3 M hM (hu.agree M)⟩⟩
  obtain ⟨r, hr, rfl⟩ := List.mem_map.1 hM
  exact (h2 r hr).1

example : TrailFirst trailPattern ∧ UniqueNames [] trailPattern ∧ ((run searchOps).map (fun s => decide
    (∀ q ∈ trailPattern, State.propIters s.nodeIx q.props ≠ none ∧ State.propIters s.edgeIx q.props ≠ none))) = some true := by
  decide +kernel

/-- C30 fails: a search that would start at an undirected edge item panics. -/
theorem C30_false_undirected : ¬ ∀ ops, Spec.ValidHistory ops → C30_statement ops := by
  intro h
  have w : Spec.ValidHistory rowOps ∧ (run rowOps).isSome ∧
      (run rowOps).bind (fun s => (Pattern.run s [] [{}, { undirected := true }, {}]).map (fun o => o.2.length)) = none := by
    decide +kernel
  obtain ⟨h1, h2, h3⟩ := w
  obtain ⟨s, hs⟩ := Option.isSome_iff_exists.1 h2
  obtain ⟨rs, h4, _⟩ := h rowOps h1 s hs [] [{}, { undirected := true }, {}] (by decide)
  rw [hs, Option.bind_some, h4] at h3
  cases h3

/-- A node with a loop and two edges to other nodes. -/
def loopOps : List Op :=
  [.newNode ["A"] [], .newNode ["B"] [], .newNode ["B"] [], .newEdge 0 0 "x" [], .newEdge 0 1 "x" [], .newEdge 0 2 "x" []]

/-- C30 fails: a loop is reported twice by an undirected item. -/
theorem C30_false_loop : ¬ ∀ ops, Spec.ValidHistory ops → C30_statement ops := by
  intro h
  have w : Spec.ValidHistory loopOps ∧
      (run loopOps).bind (fun s => (Pattern.run s [] [{ name := "a", labels := ["A"] }, { undirected := true }, { name := "b" }]).map
        (fun o => o.2.take 2)) =
      some [({ path := [⟨3, false⟩] }, [("a", .node 0), ("b", .node 0)]),
            ({ path := [⟨3, false⟩] }, [("a", .node 0), ("b", .node 0)])] := by
    decide +kernel
  obtain ⟨h1, h2⟩ := w
  obtain ⟨s, hs, h2⟩ := Option.bind_eq_some_iff.1 h2
  obtain ⟨o, ho, h2⟩ := Option.map_eq_some_iff.1 h2
  obtain ⟨rs, h3, h4, h5⟩ := h loopOps h1 s hs [] [{ name := "a", labels := ["A"] }, { undirected := true }, { name := "b" }] (by decide)
  rw [ho, Option.some.injEq] at h3
  subst h3
  have key : ∀ r ∈ rs, r.2 = ({ path := [⟨3, false⟩] }, [("a", .node 0), ("b", .node 0)]) →
      r.1 = [.node 0, .trail [3], .node 0] := by
    intro r hr h0
    obtain ⟨⟨hl, hM⟩, start, hS⟩ := h4 r hr
    have m0 := hM 0 (by decide)
    have m1 := hM 1 (by decide)
    have m2 := hM 2 (by decide)
    rw [if_pos (by decide)] at m0 m2
    rw [if_neg (by decide)] at m1
    obtain ⟨n0, m0, _⟩ := m0
    obtain ⟨n2, m2, _⟩ := m2
    obtain ⟨a, es, b, k0, k1, k2, e1, _, e3, e4, ⟨_, e5⟩, _⟩ := m1
    rw [show 1 - 1 = 0 by decide, m0] at k0
    rw [show 1 + 1 = 2 by decide, m2] at k2
    cases k0
    cases k2
    have hname : ∀ i n, i < 3 → i ≠ 1 → r.1[i]? = some (.node n) → ∀ name v, AMap.get r.2.2 name = some v →
        (∀ j, j < 3 → (itemAt [{ name := "a", labels := ["A"] }, { undirected := true }, { name := "b" }] j).name = name → j = i) →
        v = .node n := by
      intro i n hi hi1 hm name v hg hj
      obtain ⟨_, j, j1, j2, j3⟩ := (hS name).1 v hg
      have := hj j j1 j2
      subst this
      rcases j3 with ⟨n', q1, q2⟩ | ⟨_, _, _, _, _, q1, _⟩
      · rw [hm] at q1; cases q1; exact q2
      · rw [hm] at q1; cases q1
    have ha := hname 0 n0 (by decide) (by decide) m0 "a" (.node 0) (by rw [h0]; rfl) (by decide)
    have hb := hname 2 n2 (by decide) (by decide) m2 "b" (.node 0) (by rw [h0]; rfl) (by decide)
    cases ha
    cases hb
    have hes : ∃ e, es = [e] := by
      simp only [itemAt, List.getD_cons_succ, List.getD_cons_zero] at e5
      have hpos := List.length_pos_iff.2 e1
      exact List.length_eq_one_iff.1 (by omega)
    obtain ⟨e, rfl⟩ := hes
    obtain ⟨hedge, _⟩ := e3 e (by simp)
    obtain ⟨c, hc, hc'⟩ := e4
    have hc' : c = 0 := hc'
    subst hc'
    have : ∀ x ∈ (Spec.run loopOps).edges, ((Spec.run loopOps).src x = 0 ∧ (Spec.run loopOps).dst x = 0) ∨
        ((Spec.run loopOps).dst x = 0 ∧ (Spec.run loopOps).src x = 0) → x = 3 := by decide +kernel
    have he : e = 3 := this e hedge hc
    subst he
    have hl' : r.1.length = 3 := hl
    generalize r.1 = M at hl' m0 k1 m2
    match M, hl' with
    | [x, y, z], _ =>
      simp only [List.getElem?_cons_zero, List.getElem?_cons_succ, Option.some.injEq] at m0 k1 m2
      rw [m0, k1, m2]
  match rs, h2 with
  | [], h2 => cases h2
  | [_], h2 => simp at h2
  | r1 :: r2 :: rs, h2 =>
    simp only [List.map_cons, List.take_succ_cons, List.take_zero, List.cons.injEq, and_true] at h2
    have q1 := key r1 (by simp) h2.1
    have q2 := key r2 (by simp) h2.2
    have := h5 r1.1 (h4 r1 (by simp)).1 (UniqueNames.agree (by decide) _)
    rw [List.map_cons, List.map_cons, q2, ← q1] at this
    simp only [List.count_cons_self] at this
    omega

/-! ## C31 -/

/-- The candidates for the item at which the search starts: members of the graph, each once, and all that satisfy the item. -/
structure RightStart (σ : Spec) (symbols : Symbols) (p : Pattern) (xs : List Nat) (index : Nat) : Prop where
  lt : index < p.length
  nodup : xs.Nodup
  nodes : index % 2 = 0 → (∀ n ∈ xs, n ∈ σ.nodes) ∧ ∀ n, NodeFits σ symbols (itemAt p index) n → n ∈ xs
  edges : index % 2 = 1 → (∀ e ∈ xs, e ∈ σ.edges) ∧
    ∀ e ∈ σ.edges, σ.EdgeMatches (itemAt p index).labels (itemAt p index).props e → e ∈ xs

theorem RightStart.exact {σ : Spec} {symbols : Symbols} {p : Pattern} {xs : List Nat} {index : Nat}
    (h : RightStart σ symbols p xs index) (hp : PatternOk σ symbols p) (hst : StartOk p index) :
    Exact σ symbols p xs index :=
  ⟨⟨⟨hp.odd, h.lt, hp.labels, fun i hi he hn sym hg => by
      obtain ⟨a, ys, b, _⟩ := hp.bound i hi he hn sym hg
      exact ⟨a, by rw [b]; rfl⟩, hp.kinds, fun ho => (hst ho).1, fun he => (h.nodes he).1, fun ho => (h.edges ho).1⟩,
    hp.free, fun ho => (hst ho).2⟩, fun he => (h.nodes he).2, fun ho => (h.edges ho).2⟩

/-- C31 for one history: two searches from different items are for the same matches. See `Props/C31.lean`. -/
def C31_statement (ops : List Op) : Prop :=
  ∀ s, run ops = some s → ∀ symbols p xs i ys j, p.length % 2 = 1 → RightStart (Spec.run ops) symbols p xs i →
    RightStart (Spec.run ops) symbols p ys j → ∃ rs rs' : List Answer,
      Pat.runFrom s symbols p (some xs) i = some (none, rs.map (·.2)) ∧
      Pat.runFrom s symbols p (some ys) j = some (none, rs'.map (·.2)) ∧
      (∀ r ∈ rs, SymbolsShow (Spec.run ops).ends i p r.1 r.2.2) ∧
      (∀ r ∈ rs', SymbolsShow (Spec.run ops).ends j p r.1 r.2.2) ∧ (rs.map (·.1)).Perm (rs'.map (·.1))

/-- Two right starts of one pattern: a node item and an edge item. -/
example : RightStart (Spec.run searchOps) [] searchPattern [0, 1, 2, 3] 0 ∧
    RightStart (Spec.run searchOps) [] searchPattern [4, 5, 6, 7, 8] 3 := by
  have h : (Spec.run searchOps).nodes = [0, 1, 2, 3] ∧ (Spec.run searchOps).edges = [4, 5, 6, 7, 8] := by decide +kernel
  exact ⟨⟨by decide, by decide, fun _ => ⟨fun n hn => by rw [h.1]; exact hn, fun n hn => by rw [← h.1]; exact hn.1⟩,
      fun h => (by cases h)⟩,
    ⟨by decide, by decide, fun h => (by cases h),
      fun _ => ⟨fun n hn => by rw [h.2]; exact hn, fun n hn _ => by rw [← h.2]; exact hn⟩⟩⟩

/-- The same graph without the index, for `C31_histories_partial`. -/
example : Spec.run searchOps = Spec.run (searchOps.eraseIdx 4) ∧ Spec.ValidHistory (searchOps.eraseIdx 4) :=
  ⟨rfl, by decide +kernel⟩

/-- C31 fails: from the node the undirected edge is found, from the edge the search panics. -/
theorem C31_false : ¬ ∀ ops, Spec.ValidHistory ops → C31_statement ops := by
  intro h
  have w : Spec.ValidHistory rowOps ∧ (run rowOps).isSome ∧
      (run rowOps).bind (fun s => (Pat.runFrom s [] [{}, { undirected := true }, {}] (some [0, 1, 2]) 0).map
        (fun o => o.2.length)) = some 4 ∧
      (run rowOps).bind (fun s => (Pat.runFrom s [] [{}, { undirected := true }, {}] (some [3, 4]) 1).map
        (fun o => o.2.length)) = none ∧
      (Spec.run rowOps).nodes = [0, 1, 2] ∧ (Spec.run rowOps).edges = [3, 4] := by
    decide +kernel
  obtain ⟨h1, h2, _, h3, h4, h5⟩ := w
  obtain ⟨s, hs⟩ := Option.isSome_iff_exists.1 h2
  obtain ⟨_, rs', _, h6, _⟩ := h rowOps h1 s hs [] [{}, { undirected := true }, {}] [0, 1, 2] 0 [3, 4] 1 (by decide)
    ⟨by decide, by decide, fun _ => ⟨fun n hn => by rw [h4]; exact hn, fun n hn => by rw [← h4]; exact hn.1⟩, fun h => by cases h⟩
    ⟨by decide, by decide, fun h => (by cases h), fun _ => ⟨fun n hn => by rw [h5]; exact hn, fun n hn _ => by rw [← h5]; exact hn⟩⟩
  rw [hs, Option.bind_some, h6] at h3
  cases h3

/-! ## C32 -/

/-- C32 for one history: the path of a report is the path of a match that the report is for. -/
def C32_statement (ops : List Op) : Prop :=
  ∀ s, run ops = some s → ∀ symbols p e out, Pattern.run s symbols p = some (e, out) →
    ∀ r ∈ out, ∃ M start, Matches (Spec.run ops) symbols p M ∧ SymbolsShow (Spec.run ops).ends start p M r.2 ∧
      PathShows (Spec.run ops).ends M r.1

/-- C32 if all items before the start are for one edge, and the start is a node item or an edge item from left to right.
Missing: trails of several edges before the start, of which only one edge is in the path, and edge starts from right to left,
whose path is reversed (`C32_false`). -/
theorem C32_partial (ops : List Op) (hv : Spec.ValidHistory ops) (s : State) (hs : run ops = some s)
    (symbols : Symbols) (p : Pattern) (hp : PatternOk (Spec.run ops) symbols p) (index : Nat) (hc : Chosen s symbols p index)
    (hh : StartRight ops symbols p index)
    (hst : StartOk p index) (hpath : PathOk p index) :
    ∃ out, Pattern.run s symbols p = some (none, out) ∧
      ∀ r ∈ out, ∃ M, Matches (Spec.run ops) symbols p M ∧ SymbolsShow (Spec.run ops).ends index p M r.2 ∧
        PathShows (Spec.run ops).ends M r.1 := by
  obtain ⟨rs, h1, h2, _⟩ := planned hv hs hp hc hh hst hpath.safe
  refine ⟨_, h1, fun r hr => ?_⟩
  obtain ⟨a, ha, rfl⟩ := List.mem_map.1 hr
  exact ⟨a.1, (h2 a ha).1, (h2 a ha).2.1, (h2 a ha).2.2 hpath⟩

/-- The same for every right start. -/
theorem C32_anyStart_partial (ops : List Op) (hv : Spec.ValidHistory ops) (s : State) (hs : run ops = some s)
    (symbols : Symbols) (p : Pattern) (hp : PatternOk (Spec.run ops) symbols p) (xs : List Nat) (index : Nat)
    (hx : RightStart (Spec.run ops) symbols p xs index) (hst : StartOk p index) (hpath : PathOk p index) :
    ∃ out, Pat.runFrom s symbols p (some xs) index = some (none, out) ∧
      ∀ r ∈ out, ∃ M, Matches (Spec.run ops) symbols p M ∧ SymbolsShow (Spec.run ops).ends index p M r.2 ∧
        PathShows (Spec.run ops).ends M r.1 := by
  obtain ⟨rs, h1, h2, _⟩ := answers hv hs (hx.exact hp hst) hpath.safe
  refine ⟨_, h1, fun r hr => ?_⟩
  obtain ⟨a, ha, rfl⟩ := List.mem_map.1 hr
  exact ⟨a.1, (h2 a ha).1, (h2 a ha).2.1, (h2 a ha).2.2 hpath⟩

/-- C32 fails: if the search starts at an edge item from right to left, the path leads from the last node to the first. -/
theorem C32_false : ¬ ∀ ops, Spec.ValidHistory ops → C32_statement ops := by
  intro h
  have w : Spec.ValidHistory rowOps ∧
      (run rowOps).bind (fun s => Pattern.run s [] [{ name := "a" }, { toLeft := true }, { name := "b" }]) =
      some (none, [({ path := [⟨3, false⟩] }, [("b", .node 0), ("a", .node 1)]),
                   ({ path := [⟨4, false⟩] }, [("b", .node 1), ("a", .node 2)])]) := by
    decide +kernel
  obtain ⟨h1, h2⟩ := w
  obtain ⟨s, hs, h2⟩ := Option.bind_eq_some_iff.1 h2
  obtain ⟨M, start, ⟨hl, hM⟩, hS, a, b, p1, p2, _, p4⟩ := h rowOps h1 s hs _ _ _ _ h2 _ (List.mem_cons_self ..)
  obtain ⟨_, _, hlink, _⟩ := p4 (by rw [hl]; decide)
  obtain ⟨_, i, hi, hin, hshow⟩ := (hS "a").1 (.node 1) rfl
  have hi0 : i = 0 := by
    have : i = 0 ∨ i = 1 ∨ i = 2 := by simp only [List.length_cons, List.length_nil] at hi; omega
    rcases this with rfl | rfl | rfl
    · rfl
    · exact absurd hin (by decide)
    · exact absurd hin (by decide)
  subst hi0
  rcases hshow with ⟨n, hn, hx⟩ | ⟨_, _, _, _, _, _, _, hx, _⟩
  · cases hx
    rw [List.head?_eq_getElem?, hn] at p1
    cases p1
    have : ¬ ((⟨3, false⟩ : PathElement).getSourceNode (Spec.run rowOps).ends = 1) := by decide +kernel
    exact this hlink
  · cases hx

/-! ## C33 -/

/-- C33 for one history: in the match that a report is for, items with the same name have the same value, and the value of a bound
name is in the set that it is bound to. -/
def C33_statement (ops : List Op) : Prop :=
  ∀ s, run ops = some s → ∀ symbols p e out, Pattern.run s symbols p = some (e, out) →
    ∀ r ∈ out, ∃ M start, Matches (Spec.run ops) symbols p M ∧ SymbolsShow (Spec.run ops).ends start p M r.2 ∧
      PathShows (Spec.run ops).ends M r.1 ∧ NamesAgree symbols p M ∧
      ∀ name sym, AMap.get symbols name = some sym → ∀ v, AMap.get r.2 name = some v →
        ∃ n xs, v = .node n ∧ sym.nodes = some xs ∧ n ∈ xs

/-- Names bound by the caller: every item with such a name has a value in the set, in every report. -/
theorem C33_bound_partial (ops : List Op) (hv : Spec.ValidHistory ops) (s : State) (hs : run ops = some s)
    (symbols : Symbols) (p : Pattern) (hp : PatternOk (Spec.run ops) symbols p) (index : Nat) (hc : Chosen s symbols p index)
    (hh : StartRight ops symbols p index)
    (hst : StartOk p index) (hsafe : PathSafe p index) :
    ∃ rs : List Answer, Pattern.run s symbols p = some (none, rs.map (·.2)) ∧ ∀ r ∈ rs, Matches (Spec.run ops) symbols p r.1 ∧
      ∀ name sym, AMap.get symbols name = some sym →
        (∀ i, i < p.length → (itemAt p i).name = name → name ≠ "" →
          ∃ n xs, r.1[i]? = some (.node n) ∧ sym.nodes = some xs ∧ n ∈ xs) ∧
        ∀ v, AMap.get r.2.2 name = some v → ∃ n xs, v = .node n ∧ sym.nodes = some xs ∧ n ∈ xs := by
  obtain ⟨rs, h1, h2, _⟩ := planned hv hs hp hc hh hst hsafe
  refine ⟨rs, h1, fun r hr => ⟨(h2 r hr).1, fun name sym hg => ?_⟩⟩
  have item : ∀ i, i < p.length → (itemAt p i).name = name → name ≠ "" →
          ∃ n xs, r.1[i]? = some (.node n) ∧ sym.nodes = some xs ∧ n ∈ xs := by
    intro i hi hin hne
    by_cases he : i % 2 = 0
    · have := (h2 r hr).1.2 i hi
      rw [if_pos he] at this
      obtain ⟨n, m1, m2⟩ := this
      obtain ⟨xs, x1, x2⟩ := m2.2.2 (by rw [hin]; exact hne) sym (by rw [hin]; exact hg)
      exact ⟨n, xs, m1, x1, x2⟩
    · have := hp.free i hi (by omega) (by rw [hin]; exact hne)
      rw [hin, hg] at this
      cases this
  refine ⟨item, fun v hvv => ?_⟩
  obtain ⟨hne, i, hi, hin, hshow⟩ := ((h2 r hr).2.1 name).1 v hvv
  obtain ⟨n, xs, x1, x2, x3⟩ := item i hi hin hne
  rcases hshow with ⟨m, y1, y2⟩ | ⟨_, _, _, _, _, y1, _⟩
  · rw [x1] at y1
    cases y1
    exact ⟨n, xs, y2, x2, x3⟩
  · rw [x1] at y1
    cases y1

/-- A name bound by the caller. -/
example : PatternOk (Spec.run searchOps) [("a", { nodes := some [3, 0] })] searchPattern ∧
    UniqueNames [("a", { nodes := some [3, 0] })] searchPattern := by
  refine ⟨⟨by decide, by decide, fun i hi he hn sym hg => ?_, searchPattern_ok.kinds, by decide, searchPattern_ok.flat,
    searchPattern_ok.flatNodes, searchPattern_ok.flatEdges⟩, by decide⟩
  have hin : (itemAt searchPattern i).name = "a" := by
    apply Classical.byContradiction
    intro hna
    simp [AMap.get, Ne.symm hna] at hg
  rw [hin] at hg
  cases hg
  exact ⟨rfl, [3, 0], rfl, by decide, by decide +kernel⟩

/-- C33 if no free name is used twice. Missing: free names that are used twice (`C33_false`); for these every match that respects
the names is reported (`C30_partial`), but others are too. -/
theorem C33_partial (ops : List Op) (hv : Spec.ValidHistory ops) (s : State) (hs : run ops = some s)
    (symbols : Symbols) (p : Pattern) (hp : PatternOk (Spec.run ops) symbols p) (index : Nat) (hc : Chosen s symbols p index)
    (hh : StartRight ops symbols p index)
    (hst : StartOk p index) (hpath : PathOk p index) (hu : UniqueNames symbols p) :
    ∃ out, Pattern.run s symbols p = some (none, out) ∧
      ∀ r ∈ out, ∃ M, Matches (Spec.run ops) symbols p M ∧ SymbolsShow (Spec.run ops).ends index p M r.2 ∧
      PathShows (Spec.run ops).ends M r.1 ∧ NamesAgree symbols p M ∧
      ∀ name sym, AMap.get symbols name = some sym → ∀ v, AMap.get r.2 name = some v →
        ∃ n xs, v = .node n ∧ sym.nodes = some xs ∧ n ∈ xs := by
  obtain ⟨out, h1, h2⟩ := C32_partial ops hv s hs symbols p hp index hc hh hst hpath
  obtain ⟨rs, h3, h4⟩ := C33_bound_partial ops hv s hs symbols p hp index hc hh hst hpath.safe
  rw [h1, Option.some.injEq, Prod.mk.injEq] at h3
  refine ⟨out, h1, fun r hr => ?_⟩
  obtain ⟨M, m1, m2, m3⟩ := h2 r hr
  refine ⟨M, m1, m2, m3, hu.agree M, fun name sym hg v hvv => ?_⟩
  rw [h3.2] at hr
  obtain ⟨a, ha, rfl⟩ := List.mem_map.1 hr
  exact ((h4 a ha).2 name sym hg).2 v hvv

/-- C33 fails: once the name has been matched and forgotten, it is free for the other edges of the first node. -/
theorem C33_false : ¬ ∀ ops, Spec.ValidHistory ops → C33_statement ops := by
  intro h
  have w : Spec.ValidHistory loopOps ∧
      (run loopOps).bind (fun s => Pattern.run s [] [{ name := "a", labels := ["A"] }, {}, { name := "a" }]) =
      some (none, [({ path := [⟨3, false⟩] }, [("a", .node 0)]), ({ path := [⟨4, false⟩] }, [("a", .node 0)]),
                   ({ path := [⟨5, false⟩] }, [("a", .node 0)])]) := by
    decide +kernel
  obtain ⟨h1, h2⟩ := w
  obtain ⟨s, hs, h2⟩ := Option.bind_eq_some_iff.1 h2
  obtain ⟨M, start, ⟨hl, hM⟩, hS, ⟨a, b, p1, p2, _, p4⟩, hN, _⟩ := h loopOps h1 s hs _ _ _ _ h2
    ({ path := [⟨4, false⟩] }, [("a", .node 0)]) (by simp)
  obtain ⟨_, _, hlink, hlink'⟩ := p4 (by rw [hl]; decide)
  have hab := hN 0 2 (by decide) (by decide) rfl (by decide) rfl
  rw [List.head?_eq_getElem?] at p1
  rw [List.getLast?_eq_getElem?, hl] at p2
  have p2 : M[2]? = some (.node b) := p2
  rw [p1, p2] at hab
  cases hab
  have hlink' : (⟨4, false⟩ : PathElement).getTargetNode (Spec.run loopOps).ends = a := hlink'
  have : ¬ ((⟨4, false⟩ : PathElement).getSourceNode (Spec.run loopOps).ends =
      (⟨4, false⟩ : PathElement).getTargetNode (Spec.run loopOps).ends) := by decide +kernel
  exact this (hlink.trans hlink'.symm)

end LPG
