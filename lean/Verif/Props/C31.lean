import Verif.Props.C32Exact
import Verif.Props.C29Bound
/-!
# C31: what is found does not depend on where the search starts

A match that respects the names is reported equally often from all starts, `2 ^ loops` times. So two searches that do not
panic report the same matches, with the same repetitions.
-/
namespace LPG
open Pat

theorem UniqueNodeNames.free_agree {symbols : Symbols} {p : Pattern} (h : UniqueNodeNames symbols p) (M : Match) :
    NodesAgree symbols p M := by
  intro i j hi hj he he' heq hne hfree
  by_cases hij : i = j
  · rw [hij]
  · have := h i hi j hj ⟨he, he', hij⟩ heq hne
    rw [hfree] at this
    cases this

/-- Two lists of matches in which every match is as often. -/
theorem perm_of_counts {Ms Ms' : List Match} {P : Match → Prop} (h1 : ∀ M ∈ Ms, P M) (h2 : ∀ M ∈ Ms', P M)
    (h : ∀ M, P M → Ms.count M = Ms'.count M) : Ms.Perm Ms' := by
  rw [List.perm_iff_count]
  intro M
  by_cases hM : P M
  · exact h M hM
  · rw [List.count_eq_zero.2 (fun hm => hM (h1 M hm)), List.count_eq_zero.2 (fun hm => hM (h2 M hm))]

/-- What a search reports is for matches, and every match that respects the names of node items is reported once, or twice for
every undirected one-edge item at which it has a loop. -/
structure Counted (σ : Spec) (symbols : Symbols) (p : Pattern) (index : Nat) (rs : List Answer) : Prop where
  sound : ∀ r ∈ rs, Matches σ symbols p r.1 ∧ SymbolsShow σ.ends index p r.1 r.2.2
  count : ∀ M, Matches σ symbols p M → NodesAgree symbols p M → (rs.map (·.1)).count M = 2 ^ Match.loops σ p M

theorem Counted.equally {σ : Spec} {symbols : Symbols} {p : Pattern} {i j : Nat} {rs rs' : List Answer}
    (a : Counted σ symbols p i rs) (b : Counted σ symbols p j rs') (M : Match) (hM : NodesAgree symbols p M) :
    (rs.map (·.1)).count M = (rs'.map (·.1)).count M := by
  by_cases h : Matches σ symbols p M
  · rw [a.count M h hM, b.count M h hM]
  · rw [List.count_eq_zero.2, List.count_eq_zero.2]
    · intro hm
      obtain ⟨r, hr, rfl⟩ := List.mem_map.1 hm
      exact h (b.sound r hr).1
    · intro hm
      obtain ⟨r, hr, rfl⟩ := List.mem_map.1 hm
      exact h (a.sound r hr).1

theorem Counted.perm {σ : Spec} {symbols : Symbols} {p : Pattern} {i j : Nat} {rs rs' : List Answer}
    (a : Counted σ symbols p i rs) (b : Counted σ symbols p j rs') (hu : UniqueNodeNames symbols p) :
    (rs.map (·.1)).Perm (rs'.map (·.1)) := by
  rw [List.perm_iff_count]
  exact fun M => a.equally b M (hu.free_agree M)

section
variable {ops : List Op} (hv : Spec.ValidHistory ops) {s : State} (hs : run ops = some s)
variable {symbols : Symbols} {p : Pattern}
include hv hs

/-- a search from a right start that does not panic -/
theorem counted {xs : List Nat} {index : Nat} (E : Exact (Spec.run ops) symbols p xs index) (hn : xs.Nodup)
    (hr : Pat.runFrom s symbols p (some xs) index ≠ none) :
    ∃ rs, Pat.runFrom s symbols p (some xs) index = some (none, rs.map (·.2)) ∧ Counted (Spec.run ops) symbols p index rs := by
  rcases answers_fair hv hs E.toAdmissible E.toFair (fun _ _ _ _ => rfl) with ⟨rs, h1, h2, _, _, h5, _⟩ | ⟨h1, _⟩
  · exact ⟨rs, h1, fun r hr => ⟨(h2 r hr).1, (h2 r hr).2.2.1⟩, fun M hM hN => h5 M hM (E.startsIn hM) hN hn⟩
  · exact absurd h1 hr

/-- a search from the start that is chosen -/
theorem counted_run (hp : PatternOk (Spec.run ops) symbols p) {index : Nat} (hc : Chosen s symbols p index)
    (hh : StartRight ops symbols p index) (hst : StartOk p index) (hr : Pattern.run s symbols p ≠ none) :
    ∃ rs, Pattern.run s symbols p = some (none, rs.map (·.2)) ∧ Counted (Spec.run ops) symbols p index rs := by
  obtain ⟨itr, hc⟩ := hc
  obtain ⟨xs, rfl, hn, E⟩ := chosen_exact hv hs hp hc hh hst
  unfold Pattern.run at hr ⊢
  rw [hc] at hr ⊢
  exact counted hv hs E hn hr

/-- it does not panic if no trail of several edges is between the first edge item and the start -/
theorem safe_run (hp : PatternOk (Spec.run ops) symbols p) {index : Nat} (hc : Chosen s symbols p index)
    (hh : StartRight ops symbols p index) (hst : StartOk p index) (hsafe : PathSafe p index) : Pattern.run s symbols p ≠ none := by
  obtain ⟨rs, h1, _⟩ := planned hv hs hp hc hh hst hsafe
  rw [h1]; simp

end

/-- C31 for well-formed patterns and starts that are node items or directed edge items for one edge, and searches that do not
panic: every match that respects the names of node items is reported equally often from both starts. Without repeated names
these are all reports. Missing: the other starts (`C31_false`), searches that panic, and the reports that do not respect
repeated names, whose number depends on the start. -/
theorem C31_counts_partial (ops : List Op) (hv : Spec.ValidHistory ops) (s : State) (hs : run ops = some s) (symbols : Symbols)
    (p : Pattern) (hp : PatternOk (Spec.run ops) symbols p)
    (xs : List Nat) (i : Nat) (hi : RightStart (Spec.run ops) symbols p xs i) (hi1 : StartOk p i)
    (ys : List Nat) (j : Nat) (hj : RightStart (Spec.run ops) symbols p ys j) (hj1 : StartOk p j)
    (hr : Pat.runFrom s symbols p (some xs) i ≠ none) (hr' : Pat.runFrom s symbols p (some ys) j ≠ none) :
    ∃ rs rs' : List Answer,
      Pat.runFrom s symbols p (some xs) i = some (none, rs.map (·.2)) ∧
      Pat.runFrom s symbols p (some ys) j = some (none, rs'.map (·.2)) ∧
      (∀ r ∈ rs, Matches (Spec.run ops) symbols p r.1 ∧ SymbolsShow (Spec.run ops).ends i p r.1 r.2.2) ∧
      (∀ r ∈ rs', Matches (Spec.run ops) symbols p r.1 ∧ SymbolsShow (Spec.run ops).ends j p r.1 r.2.2) ∧
      (∀ M, NodesAgree symbols p M → (rs.map (·.1)).count M = (rs'.map (·.1)).count M) ∧
      (UniqueNodeNames symbols p → (rs.map (·.1)).Perm (rs'.map (·.1))) := by
  obtain ⟨rs, a1, a⟩ := counted hv hs (hi.exact hp hi1) hi.nodup hr
  obtain ⟨rs', b1, b⟩ := counted hv hs (hj.exact hp hj1) hj.nodup hr'
  exact ⟨rs, rs', a1, b1, a.sound, b.sound, a.equally b, a.perm b⟩

/-- C31 for well-formed patterns without repeated names, and starts that are node items or directed edge items for one edge.
The searches do not panic. Missing: what is missing for `C31_counts_partial`. -/
theorem C31_partial (ops : List Op) (hv : Spec.ValidHistory ops) (s : State) (hs : run ops = some s) (symbols : Symbols)
    (p : Pattern) (hp : PatternOk (Spec.run ops) symbols p) (hu : UniqueNodeNames symbols p)
    (xs : List Nat) (i : Nat) (hi : RightStart (Spec.run ops) symbols p xs i) (hi1 : StartOk p i) (hi2 : PathSafe p i)
    (ys : List Nat) (j : Nat) (hj : RightStart (Spec.run ops) symbols p ys j) (hj1 : StartOk p j) (hj2 : PathSafe p j) :
    ∃ rs rs' : List Answer,
      Pat.runFrom s symbols p (some xs) i = some (none, rs.map (·.2)) ∧
      Pat.runFrom s symbols p (some ys) j = some (none, rs'.map (·.2)) ∧
      (∀ r ∈ rs, SymbolsShow (Spec.run ops).ends i p r.1 r.2.2) ∧
      (∀ r ∈ rs', SymbolsShow (Spec.run ops).ends j p r.1 r.2.2) ∧ (rs.map (·.1)).Perm (rs'.map (·.1)) := by
  obtain ⟨_, a1, _⟩ := answers hv hs (hi.exact hp hi1) hi2
  obtain ⟨_, b1, _⟩ := answers hv hs (hj.exact hp hj1) hj2
  obtain ⟨rs, rs', h1, h2, h3, h4, _, h5⟩ := C31_counts_partial ops hv s hs symbols p hp xs i hi hi1 ys j hj hj1
    (by rw [a1]; simp) (by rw [b1]; simp)
  exact ⟨rs, rs', h1, h2, fun r hr => (h3 r hr).2, fun r hr => (h4 r hr).2, h5 hu⟩

/-- Two histories that lead to the same graph, with or without indexes for instance: what `Run` reports is for the same
matches, whatever the planner chooses, if neither search panics. -/
theorem C31_histories_counts_partial (ops ops' : List Op) (hv : Spec.ValidHistory ops) (hv' : Spec.ValidHistory ops')
    (hsame : Spec.run ops = Spec.run ops') (s s' : State)
    (hs : run ops = some s) (hs' : run ops' = some s') (symbols : Symbols) (p : Pattern)
    (hp : PatternOk (Spec.run ops) symbols p)
    (i j : Nat) (hi : Chosen s symbols p i) (hh : StartRight ops symbols p i) (hi1 : StartOk p i)
    (hj : Chosen s' symbols p j) (hh' : StartRight ops' symbols p j) (hj1 : StartOk p j)
    (hr : Pattern.run s symbols p ≠ none) (hr' : Pattern.run s' symbols p ≠ none) :
    ∃ rs rs' : List Answer,
      Pattern.run s symbols p = some (none, rs.map (·.2)) ∧ Pattern.run s' symbols p = some (none, rs'.map (·.2)) ∧
      (∀ r ∈ rs, Matches (Spec.run ops) symbols p r.1 ∧ SymbolsShow (Spec.run ops).ends i p r.1 r.2.2) ∧
      (∀ r ∈ rs', Matches (Spec.run ops) symbols p r.1 ∧ SymbolsShow (Spec.run ops).ends j p r.1 r.2.2) ∧
      (∀ M, NodesAgree symbols p M → (rs.map (·.1)).count M = (rs'.map (·.1)).count M) ∧
      (UniqueNodeNames symbols p → (rs.map (·.1)).Perm (rs'.map (·.1))) := by
  obtain ⟨rs, a1, a⟩ := counted_run hv hs hp hi hh hi1 hr
  obtain ⟨rs', b1, b⟩ := counted_run hv' hs' (hsame ▸ hp) hj hh' hj1 hr'
  rw [← hsame] at b
  exact ⟨rs, rs', a1, b1, a.sound, b.sound, a.equally b, a.perm b⟩

/-- The same without the assumption that the searches return. -/
theorem C31_histories_partial (ops ops' : List Op) (hv : Spec.ValidHistory ops) (hv' : Spec.ValidHistory ops')
    (hh : StartsRight ops) (hh' : StartsRight ops') (hsame : Spec.run ops = Spec.run ops') (s s' : State)
    (hs : run ops = some s) (hs' : run ops' = some s') (symbols : Symbols) (p : Pattern)
    (hp : PatternOk (Spec.run ops) symbols p) (hu : UniqueNodeNames symbols p)
    (i j : Nat) (hi : Chosen s symbols p i) (hi1 : StartOk p i) (hi2 : PathSafe p i)
    (hj : Chosen s' symbols p j) (hj1 : StartOk p j) (hj2 : PathSafe p j) :
    ∃ rs rs' : List Answer,
      Pattern.run s symbols p = some (none, rs.map (·.2)) ∧ Pattern.run s' symbols p = some (none, rs'.map (·.2)) ∧
      (∀ r ∈ rs, SymbolsShow (Spec.run ops).ends i p r.1 r.2.2) ∧
      (∀ r ∈ rs', SymbolsShow (Spec.run ops).ends j p r.1 r.2.2) ∧ (rs.map (·.1)).Perm (rs'.map (·.1)) := by
  obtain ⟨rs, rs', h1, h2, h3, h4, _, h5⟩ := C31_histories_counts_partial ops ops' hv hv' hsame s s' hs hs' symbols p hp i j
    hi (hh.at symbols p i) hi1 hj (hh'.at symbols p j) hj1 (safe_run hv hs hp hi (hh.at symbols p i) hi1 hi2)
    (safe_run hv' hs' (hsame ▸ hp) hj (hh'.at symbols p j) hj1 hj2)
  exact ⟨rs, rs', h1, h2, fun r hr => (h3 r hr).2, fun r hr => (h4 r hr).2, h5 hu⟩

/-- The search pattern has no repeated names of node items, and neither start panics. -/
example : UniqueNodeNames [] searchPattern ∧ StartOk searchPattern 0 ∧ PathSafe searchPattern 0 := by
  refine ⟨by decide, fun h => (by cases h), ?_⟩
  exact ⟨fun i _ _ hi => by omega, fun h => (by cases h)⟩

/-- A loop and an edge, and a node with an undirected edge to another: from both ends the loop is reported twice. -/
def selfOps : List Op := [.newNode [] [], .newNode [] [], .newEdge 0 0 "x" [], .newEdge 0 1 "y" []]

def selfPattern : Pattern := [{ name := "a" }, { undirected := true }, { name := "b" }]

example : Spec.ValidHistory selfOps ∧
    (run selfOps).bind (fun s => (Pat.runFrom s [] selfPattern (some [0, 1]) 0).map
      (fun o => o.2.map (fun r => (AMap.get r.2 "a", AMap.get r.2 "b")))) =
      some [(some (.node 0), some (.node 0)), (some (.node 0), some (.node 0)), (some (.node 0), some (.node 1)), (some (.node 1), some (.node 0))] ∧
    (run selfOps).bind (fun s => (Pat.runFrom s [] selfPattern (some [0, 1]) 2).map
      (fun o => o.2.map (fun r => (AMap.get r.2 "a", AMap.get r.2 "b")))) =
      some [(some (.node 0), some (.node 0)), (some (.node 0), some (.node 0)), (some (.node 1), some (.node 0)), (some (.node 0), some (.node 1))] := by
  decide +kernel

/-- Two nodes with edges from a third one, which has a loop. -/
def namedOps : List Op :=
  [.newNode [] [], .newNode [] [], .newNode [] [], .newEdge 0 1 "x" [], .newEdge 0 2 "x" [], .newEdge 0 0 "x" []]

/-- A node with an undirected edge to itself, and any edge from it. -/
def namedPattern : Pattern := [{ name := "a" }, { undirected := true }, { name := "a" }, {}, {}]

/-- C31 fails for a name that is used twice: from its first use there are 6 reports, from its second 12. -/
theorem C31_false_names : ¬ ∀ ops, Spec.ValidHistory ops → C31_statement ops := by
  intro h
  have w : Spec.ValidHistory namedOps ∧ (run namedOps).isSome ∧
      (run namedOps).bind (fun s => (Pat.runFrom s [] namedPattern (some [0, 1, 2]) 0).map (fun o => o.2.length)) = some 6 ∧
      (run namedOps).bind (fun s => (Pat.runFrom s [] namedPattern (some [0, 1, 2]) 2).map (fun o => o.2.length)) = some 12 ∧
      (Spec.run namedOps).nodes = [0, 1, 2] := by
    decide +kernel
  obtain ⟨h1, h2, h3, h4, h5⟩ := w
  obtain ⟨s, hs⟩ := Option.isSome_iff_exists.1 h2
  have hr : ∀ i, i < 5 → i % 2 = 0 → RightStart (Spec.run namedOps) [] namedPattern [0, 1, 2] i := fun i hi he =>
    ⟨hi, by decide, fun _ => ⟨fun n hn => by rw [h5]; exact hn, fun n hn => by rw [← h5]; exact hn.1⟩, fun h => by omega⟩
  obtain ⟨rs, rs', h6, h7, _, _, h8⟩ := h namedOps h1 s hs [] namedPattern [0, 1, 2] 0 [0, 1, 2] 2 (by decide)
    (hr 0 (by decide) rfl) (hr 2 (by decide) rfl)
  rw [hs, Option.bind_some, h6] at h3
  rw [hs, Option.bind_some, h7] at h4
  have := h8.length_eq
  simp only [Option.map_some, Option.some.injEq, List.length_map] at h3 h4 this
  omega

end LPG
