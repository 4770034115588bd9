import Verif.Props.C32Exact
/-!
# C29 to C33 for the other starts: undirected edge items, and edge items whose bounds admit no edge
-/
namespace LPG
open Pat

/-- The same pattern, but the item at `k` is for one edge. -/
def oneEdge (p : Pattern) (k : Nat) : Pattern := p.set k { itemAt p k with min := 1, max := 1 }

theorem oneEdge_length {p : Pattern} {k : Nat} : (oneEdge p k).length = p.length := by simp [oneEdge]

theorem oneEdge_at {p : Pattern} {k i : Nat} (h : k < p.length) :
    itemAt (oneEdge p k) i = if i = k then { itemAt p k with min := 1, max := 1 } else itemAt p i := by
  unfold oneEdge itemAt
  rw [List.getD_eq_getElem?_getD, List.getElem?_set]
  by_cases hik : k = i
  · subst hik
    simp [h]
  · rw [if_neg hik, if_neg (Ne.symm hik), List.getD_eq_getElem?_getD]

theorem oneEdge_dir {p : Pattern} {k i : Nat} (h : k < p.length) : itemDir (itemAt (oneEdge p k) i) = itemDir (itemAt p i) := by
  rw [oneEdge_at h]
  split
  · rename_i e; rw [e]; rfl
  · rfl

namespace Pat

theorem fastest_set {s : State} {symbols : Symbols} {q q' : Item} (hq : q.estimateEdgeSize s symbols = q'.estimateEdgeSize s symbols) :
    ∀ (ps : List Item) (i k : Nat) (best : Option (Option (List Nat) × Int × Nat)), (i + k) % 2 = 1 → ps[k]? = some q →
      fastest s symbols (ps.set k q') i best = fastest s symbols ps i best
  | [], i, k, best, _, h => by simp at h
  | x :: ps, i, 0, best, hk, h => by
    simp only [List.getElem?_cons_zero, Option.some.injEq] at h
    subst h
    rw [List.set_cons_zero, fastest, fastest, if_neg (by omega), if_neg (by omega), hq]
  | x :: ps, i, k + 1, best, hk, h => by
    have ih := fun best => fastest_set hq ps (i + 1) k best (by omega) (by simpa using h)
    rw [List.set_cons_succ, fastest, fastest]
    simp only [ih]

theorem fastest_oneEdge {s : State} {symbols : Symbols} {p : Pattern} {k : Nat} (hk : k < p.length) (ho : k % 2 = 1)
    (h : ¬ Several (itemAt p k)) : getFastestElement s symbols (oneEdge p k) = getFastestElement s symbols p := by
  have hq : (itemAt p k).estimateEdgeSize s symbols =
      ({ itemAt p k with min := 1, max := 1 } : Item).estimateEdgeSize s symbols := by
    unfold Several at h
    unfold Item.estimateEdgeSize
    rw [if_neg h]
    dsimp only
    rw [if_neg (show ¬ ((1 : Int) > 1 ∨ (1 : Int) > 1 ∨ (1 : Int) = -1 ∨ (1 : Int) = -1) by decide)]
  unfold getFastestElement oneEdge
  rw [fastest_set hq p 0 k none (by omega) (by simp [itemAt, List.getD_eq_getElem?_getD, hk])]

theorem stepOf_oneEdge {p : Pattern} {itr : Option (List Nat)} {k i : Nat} (hk : k < p.length) (hi : i ≠ k) :
    stepOf (oneEdge p k) itr k i = stepOf p itr k i := by
  unfold stepOf
  simp only [oneEdge_dir hk]
  rw [oneEdge_at hk, if_neg hi]

theorem captureSymbols_names {result : Nat → Option Res} : ∀ {sts sts' : List Step} {ret : AMap String Res},
    sts.map (fun st => (st.ix, st.item.name)) = sts'.map (fun st => (st.ix, st.item.name)) →
    captureSymbols result sts ret = captureSymbols result sts' ret
  | [], [], _, _ => rfl
  | [], _ :: _, _, h => by simp at h
  | _ :: _, [], _, h => by simp at h
  | a :: as, b :: bs, ret, h => by
    simp only [List.map_cons, List.cons.injEq, Prod.mk.injEq] at h
    obtain ⟨⟨h1, h2⟩, h3⟩ := h
    have ih := fun ret => captureSymbols_names (result := result) (ret := ret) h3
    unfold captureSymbols
    rw [h1, h2]
    simp only [ih]

theorem storeResult_congr {s : State} {plan plan' : Plan} (hn : plan.nForward = plan'.nForward)
    (h : plan.steps.map (fun st => (st.ix, st.item.name)) = plan'.steps.map (fun st => (st.ix, st.item.name))) (r : Run) :
    storeResult s plan r = storeResult s plan' r := by
  have h1 : plan.steps.map (fun st => r.result st.ix) = plan'.steps.map (fun st => r.result st.ix) := by
    have := congrArg (List.map (fun x : Nat × String => r.result x.1)) h
    simpa [List.map_map, Function.comp_def] using this
  unfold storeResult currentPath
  simp only
  rw [h1, hn, captureSymbols_names h]

theorem runSteps_congr {s : State} {symbols : Symbols} {plan plan' : Plan}
    (h : ∀ r, storeResult s plan r = storeResult s plan' r) : ∀ (sts : List Step),
    runSteps s symbols plan sts = runSteps s symbols plan' sts
  | [] => by funext r; exact h r
  | st :: sts => by
    funext r
    simp only [runSteps]
    rw [runSteps_congr h sts]

/-- The bounds of the edge item at which a search starts do not matter. -/
theorem runFrom_oneEdge {s : State} {symbols : Symbols} {p : Pattern} {itr : Option (List Nat)} {k : Nat} (hp : p.length % 2 = 1)
    (hk : k < p.length) (ho : k % 2 = 1) : runFrom s symbols (oneEdge p k) itr k = runFrom s symbols p itr k := by
  have hsteps : ∃ rest, (order k p.length).map (stepOf p itr k) = stepOf p itr k k :: rest ∧
      (order k p.length).map (stepOf (oneEdge p k) itr k) =
        { stepOf p itr k k with item := { itemAt p k with min := 1, max := 1 } } :: rest := by
    unfold order
    refine ⟨_, rfl, ?_⟩
    rw [List.map_cons]
    congr 1
    · have h1 : (stepOf (oneEdge p k) itr k k).item = { itemAt p k with min := 1, max := 1 } := by
        rw [stepOf_item, oneEdge_at hk, if_pos rfl]
      have h2 : (stepOf (oneEdge p k) itr k k).proc = (stepOf p itr k k).proc := by rw [start_proc, start_proc]
      have h3 : (stepOf (oneEdge p k) itr k k).ix = (stepOf p itr k k).ix := by rw [stepOf_ix, stepOf_ix]
      generalize stepOf (oneEdge p k) itr k k = a at h1 h2 h3
      generalize stepOf p itr k k = b at h1 h2 h3
      obtain ⟨a1, a2, a3⟩ := a
      obtain ⟨b1, b2, b3⟩ := b
      simp only at h1 h2 h3
      rw [h1, h2, h3]
    · refine List.map_congr_left (fun i hi => stepOf_oneEdge hk ?_)
      simp only [List.mem_append, List.mem_range'_1, List.mem_reverse, List.mem_range] at hi
      omega
  obtain ⟨rest, h1, h2⟩ := hsteps
  unfold runFrom
  rw [planFrom_eq (by rw [oneEdge_length]; exact hp) (by rw [oneEdge_length]; exact hk), planFrom_eq hp hk, oneEdge_length, h1, h2]
  simp only
  unfold Plan.run
  simp only
  rw [runSteps_congr (plan' := { steps := stepOf p itr k k :: rest, nForward := p.length - (k + 1) }) (fun r => by
    have hn := fun (a b : Plan) (h1 : a.nForward = b.nForward) => storeResult_congr (s := s) (plan := a) (plan' := b) h1
    apply hn
    · rfl
    · simp [stepOf_item])]
  have hst : ∀ next r, runStep s symbols { stepOf p itr k k with item := { itemAt p k with min := 1, max := 1 } } next r =
      runStep s symbols (stepOf p itr k k) next r := by
    intro next r
    have hpr : (stepOf p itr k k).proc = .edges itr := by rw [start_proc, if_neg (by omega)]
    have hit := stepOf_item (p := p) (itr := itr) (index := k) (i := k)
    generalize stepOf p itr k k = st at hpr hit
    obtain ⟨ix, item, proc⟩ := st
    simp only at hpr hit
    subst hpr
    subst hit
    rfl
  simp only [runSteps, hst]

end Pat

/-- Searches that start at an edge item: the bounds of the item are not looked at. -/
theorem C30_start_bounds {s : State} {symbols : Symbols} {p : Pattern} {index : Nat} (hp : p.length % 2 = 1)
    (hc : Chosen s symbols p index) (ho : index % 2 = 1) :
    Pattern.run s symbols p = Pattern.run s symbols (oneEdge p index) ∧ Chosen s symbols (oneEdge p index) index := by
  obtain ⟨itr, hc⟩ := hc
  have hlt := (getFastest_spec hc).1
  have hf := fastest_oneEdge (s := s) (symbols := symbols) hlt ho (chosen_single hc ho)
  refine ⟨?_, itr, hf.trans hc⟩
  unfold Pattern.run
  rw [hf, hc]
  exact (runFrom_oneEdge hp hlt ho).symm

theorem oneEdge_ok {σ : Spec} {symbols : Symbols} {p : Pattern} {k : Nat} (hk : k < p.length) (h : PatternOk σ symbols p) :
    PatternOk σ symbols (oneEdge p k) := by
  have hname : ∀ i, (itemAt (oneEdge p k) i).name = (itemAt p i).name := by
    intro i; rw [oneEdge_at hk]; split
    · rename_i e; rw [e]
    · rfl
  have hlab : ∀ i, (itemAt (oneEdge p k) i).labels = (itemAt p i).labels := by
    intro i; rw [oneEdge_at hk]; split
    · rename_i e; rw [e]
    · rfl
  have hprops : ∀ i, (itemAt (oneEdge p k) i).props = (itemAt p i).props := by
    intro i; rw [oneEdge_at hk]; split
    · rename_i e; rw [e]
    · rfl
  constructor
  · rw [oneEdge_length]; exact h.odd
  · intro i; rw [oneEdge_length, hlab]; exact h.labels i
  · intro i; rw [oneEdge_length, hname]; exact h.bound i
  · intro i j; rw [oneEdge_length, hname, hname]; exact h.kinds i j
  · intro i; rw [oneEdge_length, hname]; exact h.free i
  · intro i; rw [oneEdge_length, hprops]; exact h.flat i
  · exact h.flatNodes
  · exact h.flatEdges

/-- Every search that starts at a directed edge item is a search for the pattern in which this item is for one edge, and that
search has a right start: the theorems about right starts say exactly what is reported. -/
theorem C30_directed_start {s : State} {symbols : Symbols} {p : Pattern} {σ : Spec} {index : Nat}
    (hp : PatternOk σ symbols p) (hc : Chosen s symbols p index) (ho : index % 2 = 1)
    (hd : itemDir (itemAt p index) ≠ .any) :
    Pattern.run s symbols p = Pattern.run s symbols (oneEdge p index) ∧ PatternOk σ symbols (oneEdge p index) ∧
      Chosen s symbols (oneEdge p index) index ∧ StartOk (oneEdge p index) index := by
  have hlt : index < p.length := by
    obtain ⟨itr, hc⟩ := hc
    exact (getFastest_spec hc).1
  obtain ⟨h1, h2⟩ := C30_start_bounds hp.odd hc ho
  refine ⟨h1, oneEdge_ok hlt hp, h2, fun _ => ⟨by rw [oneEdge_dir hlt]; exact hd, ?_, ?_⟩⟩
  · rw [oneEdge_at hlt, if_pos rfl]
  · rw [oneEdge_at hlt, if_pos rfl]; exact Int.le_refl _

/-- a search that starts at an undirected edge item -/
theorem Pat.undirected_run {ops : List Op} (hv : Spec.ValidHistory ops) {s : State} (hs : run ops = some s) {symbols : Symbols}
    {p : Pattern} (hodd : p.length % 2 = 1) {xs : List Nat} {index : Nat}
    (hc : getFastestElement s symbols p = some (some xs, index)) (hlt : index < p.length) (ho : index % 2 = 1)
    (hd : itemDir (itemAt p index) = .any) (x3 : ∀ e ∈ xs, e ∈ (Spec.run ops).edges) :
    Pattern.run s symbols p =
      (open Classical in
        if ∃ e ∈ xs, (Spec.run ops).EdgeMatches (itemAt p index).labels (itemAt p index).props e then none
        else some (none, [])) := by
  have c := Core.run hv hs
  have hok : ∀ e ∈ (Spec.run ops).edges, ((itemAt p index).edgeOk s e = true ↔
      (Spec.run ops).EdgeMatches (itemAt p index).labels (itemAt p index).props e) :=
    fun e he => edgeFilter_spec c he _ _
  unfold Pattern.run
  rw [hc]
  simp only
  unfold Pat.runFrom
  rw [planFrom_eq hodd hlt]
  simp only
  obtain ⟨rest, hrest⟩ : ∃ rest, (order index p.length).map (stepOf p (some xs) index) =
      stepOf p (some xs) index index :: stepOf p (some xs) index (index + 1) :: rest := by
    unfold order
    rw [show p.length - (index + 1) = (p.length - (index + 2)) + 1 by omega, List.range'_succ]
    exact ⟨_, rfl⟩
  rw [hrest]
  generalize hplan : (⟨stepOf p (some xs) index index :: stepOf p (some xs) index (index + 1) :: rest, p.length - (index + 1)⟩ :
    Plan) = plan
  unfold Plan.run
  have hsteps : plan.steps = stepOf p (some xs) index index :: stepOf p (some xs) index (index + 1) :: rest := by rw [← hplan]
  rw [hsteps]
  simp only [runSteps]
  have hpr : (stepOf p (some xs) index index).proc = .edges (some xs) := by rw [start_proc, if_neg (by omega)]
  have hpr1 : (stepOf p (some xs) index (index + 1)).proc = .connNodes index .anyNode none := by
    rw [fwd_proc (by omega), if_neg (by omega), show index + 1 - 1 = index by omega, hd, if_pos rfl, if_neg (by omega)]
    rfl
  have hpanic : ∀ (e : Nat) (r : Run), visit symbols (stepOf p (some xs) index index)
      (runStep s symbols (stepOf p (some xs) index (index + 1)) (runSteps s symbols plan rest)) (.path { path := [⟨e, false⟩] })
      { r with vnode := none } = none := by
    intro e r
    have hres : ∀ r, (record symbols (stepOf p (some xs) index index) r).result = r.result ∧
        (record symbols (stepOf p (some xs) index index) r).vnode = r.vnode := by
      intro r; unfold record; split
      · exact ⟨rfl, rfl⟩
      · split <;> exact ⟨rfl, rfl⟩
    unfold visit
    suffices h : runStep s symbols (stepOf p (some xs) index (index + 1)) (runSteps s symbols plan rest)
        (record symbols (stepOf p (some xs) index index)
          { r with
            vnode := none,
            result := upd r.result (stepOf p (some xs) index index).ix (some (.path { path := [⟨e, false⟩] })) }) = none by
      rw [h]
    unfold runStep
    rw [hpr1]
    simp only
    unfold runConnNodes
    rw [(hres _).1, (hres _).2, stepOf_ix]
    simp only [upd_same]
    simp [Path.getEdge, Path.numEdges, endNode]
  have hrun : runStep s symbols (stepOf p (some xs) index index)
      (runStep s symbols (stepOf p (some xs) index (index + 1)) (runSteps s symbols plan rest)) {} =
      if xs.filter ((itemAt p index).edgeOk s) = [] then some (none, {}) else none := by
    have hr : ∀ next r, runStep s symbols (stepOf p (some xs) index index) next r =
        forEach (fun e r => visit symbols (stepOf p (some xs) index index) next (.path { path := [⟨e, false⟩] }) r)
          (xs.filter ((itemAt p index).edgeOk s)) r := by
      intro next r
      unfold runStep
      rw [hpr]
      simp only
      unfold runEdges
      rw [stepOf_item]
    rw [hr]
    cases hfx : xs.filter ((itemAt p index).edgeOk s) with
    | nil => rw [if_pos rfl]; rfl
    | cons e es =>
      rw [if_neg (by simp)]
      unfold forEach
      rw [show ({} : Run) = { ({} : Run) with vnode := none } from rfl, hpanic e {}]
  rw [hrun]
  by_cases hex : ∃ e ∈ xs, (Spec.run ops).EdgeMatches (itemAt p index).labels (itemAt p index).props e
  · obtain ⟨e, e1, e2⟩ := hex
    have h0 : xs.filter ((itemAt p index).edgeOk s) ≠ [] := by
      intro h0
      exact List.filter_eq_nil_iff.1 h0 e e1 ((hok e (x3 e e1)).2 e2)
    rw [if_neg h0, if_pos ⟨e, e1, e2⟩]
  · have h0 : xs.filter ((itemAt p index).edgeOk s) = [] := by
      rw [List.filter_eq_nil_iff]
      intro e he h
      exact hex ⟨e, he, (hok e (x3 e he)).1 h⟩
    rw [if_pos h0, if_neg hex]

/-- A search that starts at an undirected edge item panics if there is an edge for the item, whatever the other items are.
Otherwise it reports nothing. -/
theorem C30_undirected_start (ops : List Op) (hv : Spec.ValidHistory ops) (s : State)
    (hs : run ops = some s) (symbols : Symbols) (p : Pattern) (hp : PatternOk (Spec.run ops) symbols p) (index : Nat)
    (hc : Chosen s symbols p index)
    (hh : StartRight ops symbols p index) (ho : index % 2 = 1) (hd : itemDir (itemAt p index) = .any) :
    Pattern.run s symbols p =
      (open Classical in
        if ∃ e ∈ (Spec.run ops).edges, (Spec.run ops).EdgeMatches (itemAt p index).labels (itemAt p index).props e then none
        else some (none, [])) := by
  obtain ⟨itr, hc⟩ := hc
  obtain ⟨hlt, sz, h1, h2⟩ := getFastest_spec hc
  rw [if_neg (by omega)] at h1
  obtain ⟨xs, rfl, _, x3, x4⟩ := edge_start hv hs hp hh hlt ho h1 h2
  rw [undirected_run hv hs hp.odd hc hlt ho hd x3]
  have hiff : (∃ e ∈ xs, (Spec.run ops).EdgeMatches (itemAt p index).labels (itemAt p index).props e) ↔
      ∃ e ∈ (Spec.run ops).edges, (Spec.run ops).EdgeMatches (itemAt p index).labels (itemAt p index).props e :=
    ⟨fun ⟨e, a, b⟩ => ⟨e, x3 e a, b⟩, fun ⟨e, a, b⟩ => ⟨e, x4 e a b, b⟩⟩
  by_cases hex : ∃ e ∈ xs, (Spec.run ops).EdgeMatches (itemAt p index).labels (itemAt p index).props e
  · rw [if_pos hex, if_pos (hiff.1 hex)]
  · rw [if_neg hex, if_neg (fun h => hex (hiff.2 h))]

/-- The pattern that a search from the item at `index` looks for: the bounds of an edge item at which it starts are ignored. -/
def sought (p : Pattern) (index : Nat) : Pattern := if index % 2 = 1 then oneEdge p index else p

/-- the ends of the reported paths are the same for it -/
theorem sought_dir {p : Pattern} {index : Nat} (hlt : index < p.length) (i : Nat) :
    itemDir (itemAt (sought p index) i) = itemDir (itemAt p i) := by
  unfold sought
  split
  · exact oneEdge_dir hlt
  · rfl

theorem sought_length {p : Pattern} {index : Nat} : (sought p index).length = p.length := by
  unfold sought
  split
  · exact oneEdge_length
  · rfl

theorem sought_shown {p : Pattern} {index : Nat} (hlt : index < p.length) {g : Ends} {M : Match} {a b : Nat} :
    (ShownFrom g (sought p index) index M a ∧ ShownTo (sought p index) index M b) ↔ (ShownFrom g p index M a ∧ ShownTo p index M b) := by
  unfold ShownFrom ShownTo
  simp only [sought_dir hlt, sought_length]

theorem StartRight.sought {ops : List Op} {symbols : Symbols} {p : Pattern} {index : Nat} (h : StartRight ops symbols p index)
    (hlt : index < p.length) : StartRight ops symbols (sought p index) index := by
  unfold LPG.sought
  split
  · have hq : itemAt (oneEdge p index) index = { itemAt p index with min := 1, max := 1 } := by rw [oneEdge_at hlt, if_pos rfl]
    obtain ⟨h1, h2, h3, h4⟩ := h
    constructor <;> first | assumption | (rw [hq]; assumption)
  · exact h

/-- C29, C30 and C32 for every start, if no free name is used twice. A search that starts at an undirected edge item panics or
reports nothing. Every other search panics exactly if there is a match whose edges do not fit together; otherwise it reports
exactly the matches of the pattern it looks for, once, or `2 ^ k` times if the match has loops at `k` undirected items for one
edge. Missing: free names that are used twice and names bound to edges. -/
theorem C30_every_start_partial (ops : List Op) (hv : Spec.ValidHistory ops) (s : State)
    (hs : run ops = some s) (symbols : Symbols) (p : Pattern) (hp : PatternOk (Spec.run ops) symbols p) (index : Nat)
    (hc : Chosen s symbols p index)
    (hh : StartRight ops symbols p index) (hu : UniqueNames symbols p) :
    (index % 2 = 1 ∧ itemDir (itemAt p index) = .any →
      (Pattern.run s symbols p = none ∧
        ∃ e ∈ (Spec.run ops).edges, (Spec.run ops).EdgeMatches (itemAt p index).labels (itemAt p index).props e) ∨
      (Pattern.run s symbols p = some (none, []) ∧
        ∀ e ∈ (Spec.run ops).edges, ¬ (Spec.run ops).EdgeMatches (itemAt p index).labels (itemAt p index).props e)) ∧
    (¬ (index % 2 = 1 ∧ itemDir (itemAt p index) = .any) →
      (Pattern.run s symbols p = none ∧ ∃ M, Matches (Spec.run ops) symbols (sought p index) M ∧
        ¬ Glues (Spec.run ops).ends (sought p index) index M) ∨
      (∃ rs : List Answer, Pattern.run s symbols p = some (none, rs.map (·.2)) ∧
        (∀ M, M ∈ rs.map (·.1) ↔ Matches (Spec.run ops) symbols (sought p index) M) ∧
        (∀ M ∈ rs.map (·.1), (rs.map (·.1)).count M = 2 ^ Match.loops (Spec.run ops) (sought p index) M) ∧
        (∀ M, Matches (Spec.run ops) symbols (sought p index) M → Glues (Spec.run ops).ends (sought p index) index M) ∧
        (∀ r ∈ rs, SymbolsShow (Spec.run ops).ends index (sought p index) r.1 r.2.2 ∧
          (p.length ≠ 1 → ∃ a b, Visits (Spec.run ops).ends r.2.1 a (Match.shown index r.1) b ∧
          ShownFrom (Spec.run ops).ends p index r.1 a ∧ ShownTo p index r.1 b) ∧
          (PathShows (Spec.run ops).ends r.1 r.2.1 ↔ Whole (sought p index) index r.1)) ∧
        (NoTwice (Spec.run ops) p → (rs.map (·.1)).Nodup))) := by
  refine ⟨fun ⟨ho, hd⟩ => ?_, fun hn => ?_⟩
  · rw [C30_undirected_start ops hv s hs symbols p hp index hc hh ho hd]
    by_cases hex : ∃ e ∈ (Spec.run ops).edges, (Spec.run ops).EdgeMatches (itemAt p index).labels (itemAt p index).props e
    · exact .inl ⟨by rw [if_pos hex], hex⟩
    · exact .inr ⟨by rw [if_neg hex], fun e he hm => hex ⟨e, he, hm⟩⟩
  · have hlt : index < p.length := by
      obtain ⟨itr, hc⟩ := hc
      exact (getFastest_spec hc).1
    have key : Pattern.run s symbols p = Pattern.run s symbols (sought p index) ∧
        PatternOk (Spec.run ops) symbols (sought p index) ∧ Chosen s symbols (sought p index) index ∧
        StartOk (sought p index) index ∧ UniqueNames symbols (sought p index) ∧ (sought p index).length = p.length ∧
        (NoTwice (Spec.run ops) p → NoTwice (Spec.run ops) (sought p index)) := by
      unfold sought
      by_cases ho : index % 2 = 1
      · rw [if_pos ho]
        have hd : itemDir (itemAt p index) ≠ .any := fun hd => hn ⟨ho, hd⟩
        obtain ⟨k1, k2, k3, k4⟩ := C30_directed_start hp hc ho hd
        refine ⟨k1, k2, k3, k4, ?_, oneEdge_length, ?_⟩
        · have hname : ∀ i, (itemAt (oneEdge p index) i).name = (itemAt p i).name := by
            intro i; rw [oneEdge_at hlt]; split
            · rename_i e; rw [e]
            · rfl
          intro i hi j hj
          rw [oneEdge_length] at hi hj
          rw [hname, hname]
          exact hu i hi j hj
        · intro hx i hi h1 h2 h3
          have hne : i ≠ index := by
            intro e
            rw [oneEdge_dir hlt, e] at h2
            exact hd h2
          rw [oneEdge_length] at hi
          rw [oneEdge_at hlt, if_neg hne] at h2 h3 ⊢
          exact hx i hi h1 h2 h3
      · rw [if_neg ho]
        exact ⟨rfl, hp, hc, fun h => absurd h ho, hu, rfl, id⟩
    obtain ⟨k1, k2, k3, k4, k5, k6, k7⟩ := key
    have hh' := hh.sought hlt
    rw [k1]
    cases hr : Pattern.run s symbols (sought p index) with
    | none => exact .inl ⟨rfl, (C30_panics_iff ops hv s hs symbols _ k2 index k3 hh' k4 k5).1 hr⟩
    | some o =>
      obtain ⟨e, out⟩ := o
      obtain ⟨rfl, rs, rfl, h1, h2, h3⟩ := C32_ran_partial ops hv s hs symbols _ k2 index k3 hh' k4 e out hr
      have hall : ∀ M, M ∈ rs.map (·.1) → Matches (Spec.run ops) symbols (sought p index) M := by
        intro M hM
        obtain ⟨r, hr, rfl⟩ := List.mem_map.1 hM
        exact (h1 r hr).1
      refine .inr ⟨rs, rfl, fun M => ⟨hall M, fun hM => List.count_pos_iff.1 ?_⟩,
        fun M hM => h2 M (hall M hM) (k5.agree M), fun M hM => ?_, fun r hr => ?_, fun h => h3 (k7 h)⟩
      · rw [h2 M hM (k5.agree M)]
        exact Nat.pow_pos (by decide)
      · apply Classical.byContradiction
        intro hg
        rw [(C30_panics_iff ops hv s hs symbols _ k2 index k3 hh' k4 k5).2 ⟨M, hM, hg⟩] at hr
        cases hr
      · obtain ⟨_, a2, a3, a4⟩ := h1 r hr
        simp only [k6, sought_shown hlt] at a3
        exact ⟨a2, a3, a4⟩

/-- A search that starts at an edge item with other bounds than one. -/
def zeroPattern : Pattern := [{}, { min := 0, max := 0 }, {}]

/-- A search that starts at an undirected edge item. -/
def undirectedPattern : Pattern := [{}, { undirected := true }, {}]

example : Spec.ValidHistory rowOps ∧ (run rowOps).bind (fun s => (getFastestElement s [] zeroPattern).map (·.2)) = some 1 ∧
    (run rowOps).bind (fun s => (Pattern.run s [] zeroPattern).map (fun o => o.2.map (·.1))) =
      (run rowOps).bind (fun s => (Pattern.run s [] (oneEdge zeroPattern 1)).map (fun o => o.2.map (·.1))) ∧
    UniqueNames [] zeroPattern ∧ itemDir (itemAt zeroPattern 1) ≠ .any := by decide +kernel

example : (run rowOps).bind (fun s => (getFastestElement s [] undirectedPattern).map (·.2)) = some 1 ∧
    UniqueNames [] undirectedPattern ∧ itemDir (itemAt undirectedPattern 1) = .any := by decide +kernel

theorem rowOps_ok : StartsRight rowOps ∧ (∀ op ∈ rowOps, FlatOp op) :=
  ⟨⟨by decide +kernel, by decide +kernel, by decide +kernel, by decide +kernel⟩, by decide +kernel⟩

example : PatternOk (Spec.run rowOps) [] zeroPattern ∧ PatternOk (Spec.run rowOps) [] undirectedPattern :=
  ⟨PatternOk.free_symbols rowOps_ok.2 (by decide) (by decide) (by decide) (by decide +kernel),
   PatternOk.free_symbols rowOps_ok.2 (by decide) (by decide) (by decide) (by decide +kernel)⟩

/-- A loop at one undirected item: the match is reported `2 ^ 1` times. -/
example : Match.loops (Spec.run loopOps) [{ name := "a", labels := ["A"] }, { undirected := true }, { name := "b" }]
    [.node 0, .trail [3], .node 0] = 1 ∧
  Match.loops (Spec.run loopOps) [{ name := "a", labels := ["A"] }, { undirected := true }, { name := "b" }]
    [.node 0, .trail [4], .node 1] = 0 := by decide +kernel

end LPG
