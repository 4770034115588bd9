import Verif.Props.C67
/-!
# C67: running a plan again with other symbols

The first run that gets past the name of a node start filters the candidates by the nodes that the name is bound to then
(planprocessors.go:28-52); later runs keep this filter and do not look at their own symbols for the name of the start.
-/
namespace LPG

/-- The symbols let the item with this name be the node. -/
def SymbolAllows (symbols : Pat.Symbols) (name : String) (n : Nat) : Prop :=
  name ≠ "" → ∀ sym ns, AMap.get symbols name = some sym → sym.nodes = some ns → n ∈ ns

/-- The name is bound to edges. -/
def BoundToEdges (symbols : Pat.Symbols) (name : String) : Prop :=
  name ≠ "" ∧ ∃ sym es, AMap.get symbols name = some sym ∧ sym.edges = some es

namespace Pat

theorem constrained_iff {symbols : Symbols} {it : Item} :
    (BoundToEdges symbols it.name ∧ ∃ e, it.isConstrainedNodes symbols [] = .error e) ∨
    (¬ BoundToEdges symbols it.name ∧ ∃ c, it.isConstrainedNodes symbols [] = .ok c ∧
      ∀ n, allows c n = true ↔ SymbolAllows symbols it.name n) := by
  unfold Item.isConstrainedNodes BoundToEdges SymbolAllows
  dsimp only
  by_cases h0 : it.name.length = 0
  · have h1 : it.name = "" := String.length_eq_zero_iff.1 h0
    right
    rw [if_pos h0]
    exact ⟨fun h => h.1 h1, none, rfl, fun n => by simp [allows, h1]⟩
  · have h1 : it.name ≠ "" := fun h => h0 (by rw [h]; rfl)
    rw [if_neg h0]
    simp only [AMap.get]
    cases hg : AMap.get symbols it.name with
    | none =>
      right
      refine ⟨fun h => ?_, none, rfl, fun n => ?_⟩
      · obtain ⟨_, _, _, h, _⟩ := h
        cases h
      · simp [allows]
    | some sym =>
      cases hs : sym.edges with
      | some es => exact .inl ⟨⟨h1, sym, es, rfl, hs⟩, .nodeVariableExpected it.name, by simp [hs]⟩
      | none =>
        right
        refine ⟨fun h => ?_, sym.nodes, by simp [hs], fun n => ?_⟩
        · obtain ⟨_, sym', es, h, h'⟩ := h
          cases h; rw [hs] at h'; cases h'
        · cases hn : sym.nodes with
          | none =>
            refine ⟨fun _ _ sym' ns h h' => ?_, fun _ => rfl⟩
            cases h; rw [hn] at h'; cases h'
          | some ns =>
            simp only [allows, List.contains_iff_mem]
            refine ⟨fun hm _ sym' ns' h h' => ?_, fun h => h h1 sym ns rfl hn⟩
            cases h; rw [hn] at h'; cases h'; exact hm

/-- What runs with any symbols leave. -/
structure PlanLeft (p : Pattern) (index : Nat) (used : List Symbols) (o : PlanObj) : Prop where
  plan : ∃ itr, planFrom p itr index = some o.plan
  filtered : index % 2 = 0 → ∀ c, o.filtered = some c → ∃ symbols ∈ used, (itemAt p index).isConstrainedNodes symbols [] = .ok c
  unfiltered : index % 2 ≠ 0 → ∀ c, o.filtered = some c → c = none

theorem PlanLeft.make {p : Pattern} {itr : Option (List Nat)} {index : Nat} {o : PlanObj} (ho : PlanObj.make p itr index = some o)
    (used : List Symbols) : PlanLeft p index used o := by
  obtain ⟨plan, hp, rfl⟩ := make_plan ho
  exact ⟨⟨itr, hp⟩, fun _ c hc => (by cases hc), fun _ c hc => (by cases hc)⟩

theorem PlanLeft.after {p : Pattern} {index : Nat} {used : List Symbols} {symbols : Symbols} {o o' : PlanObj}
    (h : PlanLeft p index used o) (hu : symbols ∈ used) {s : State} {e : Option Err} {out : List (Path × AMap String Res)}
    (hr : o.run s symbols = some (e, out, o')) : PlanLeft p index used o' ∧
      (o'.rest = o.rest ∨ ∃ xs pre ys, o.rest = some xs ∧ o'.rest = some ys ∧ xs = pre ++ ys) := by
  obtain ⟨itr, hp⟩ := h.plan
  obtain ⟨sts, hst, -, -⟩ := plan_reads hp
  have fin : ∀ (ok : Nat → Bool) (body : Nat → Run → Out) (c : Option (List Nat)),
      (index % 2 = 0 → ∃ symbols ∈ used, (itemAt p index).isConstrainedNodes symbols [] = .ok c) → (index % 2 ≠ 0 → c = none) →
      (match o.rest with
        | none => none
        | some xs => match forEachLeft ok body xs { result := o.result } with
          | none => none
          | some (e, r, ys) => some (e, r.out, ({ o with rest := some ys, filtered := some c, result := r.result } : PlanObj)))
        = some (e, out, o') → PlanLeft p index used o' ∧
      (o'.rest = o.rest ∨ ∃ xs pre ys, o.rest = some xs ∧ o'.rest = some ys ∧ xs = pre ++ ys) := by
    intro ok body c hc1 hc2 hm
    cases hrest : o.rest with
    | none => rw [hrest] at hm; cases hm
    | some xs =>
      rw [hrest] at hm
      dsimp only at hm
      cases hl : forEachLeft ok body xs { result := o.result } with
      | none => rw [hl] at hm; cases hm
      | some q =>
        obtain ⟨e1, r, ys⟩ := q
        rw [hl] at hm
        cases hm
        refine ⟨⟨⟨itr, hp⟩, fun hi c' hc' => ?_, fun hi c' hc' => ?_⟩, .inr ?_⟩
        · cases hc'; exact hc1 hi
        · cases hc'; exact hc2 hi
        · obtain ⟨h1, h2⟩ := forEachLeft_left hl
          cases he : e with
          | none => exact ⟨xs, xs, ys, rfl, rfl, by rw [h1 he]; simp⟩
          | some err =>
            obtain ⟨pre, x, _, h3, _⟩ := h2 err he
            exact ⟨xs, pre ++ [x], ys, rfl, rfl, by simp [h3]⟩
  unfold PlanObj.run at hr
  rw [hst] at hr
  by_cases hi : index % 2 = 0
  · simp only [hi, if_true] at hr
    cases hf : o.filtered with
    | some c =>
      simp only [hf] at hr
      exact fin _ _ c (fun hi => h.filtered hi c hf) (fun h' => absurd hi h') hr
    | none =>
      simp only [hf] at hr
      cases hc : (itemAt p index).isConstrainedNodes symbols [] with
      | error err =>
        simp only [hc] at hr
        cases hr
        exact ⟨h, .inl rfl⟩
      | ok c =>
        simp only [hc] at hr
        exact fin _ _ c (fun _ => ⟨symbols, hu, hc⟩) (fun h' => absurd hi h') hr
  · simp only [hi, if_false] at hr
    exact fin _ _ none (fun h' => absurd h' hi) (fun _ => rfl) hr

theorem PlanLeft.runs {p : Pattern} {index : Nat} {used : List Symbols} : ∀ {rss : List (State × Symbols)} {o o' : PlanObj}
    {rs : List (Option Err × List (Path × AMap String Res))}, PlanLeft p index used o → (∀ r ∈ rss, r.2 ∈ used) →
    o.runs rss = some (rs, o') → PlanLeft p index used o' ∧
      (o'.rest = o.rest ∨ ∃ xs pre ys, o.rest = some xs ∧ o'.rest = some ys ∧ xs = pre ++ ys)
  | [], o, o', rs, h, _, hr => by
    cases hr
    exact ⟨h, .inl rfl⟩
  | (s, symbols) :: rss, o, o', rs, h, hu, hr => by
    rw [PlanObj.runs] at hr
    cases h1 : o.run s symbols with
    | none => rw [h1] at hr; cases hr
    | some q =>
      obtain ⟨e, out, o1⟩ := q
      rw [h1] at hr
      dsimp only at hr
      cases h2 : o1.runs rss with
      | none => rw [h2] at hr; cases hr
      | some q2 =>
        obtain ⟨rs2, o2⟩ := q2
        rw [h2] at hr
        cases hr
        obtain ⟨h3, h7⟩ := h.after (hu (s, symbols) (by simp)) h1
        obtain ⟨h5, h6⟩ := PlanLeft.runs h3 (fun r hr => hu r (by simp [hr])) h2
        refine ⟨h5, ?_⟩
        rcases h7 with h7 | ⟨xs, pre, ys, b1, b2, b3⟩
        · rw [h7] at h6; exact h6
        · rcases h6 with h6 | ⟨xs', pre', ys', b4, b5, b6⟩
          · exact .inr ⟨xs, pre, ys, b1, by rw [h6, b2], b3⟩
          · rw [b2] at b4
            cases b4
            exact .inr ⟨xs, pre ++ pre', ys', b1, b5, by rw [b3, b6, List.append_assoc]⟩

end Pat

open Pat

/-- After any runs, with any symbols and on any states of the graph, a plan has a tail of its candidates left. If no run has
got past the name of the start, or the start is an edge item, a run with any symbols returns what a new plan for these would.
Otherwise the candidates stay filtered by the symbols of an earlier run: if the new symbols allow all nodes for the start that
those allowed, a run returns what a new plan for the filtered candidates would. -/
theorem C67_symbols (p : Pattern) (itr : Option (List Nat)) (index : Nat) (o : PlanObj) (ho : PlanObj.make p itr index = some o)
    (rss : List (State × Symbols)) (rs : List (Option Err × List (Path × AMap String Res))) (o' : PlanObj)
    (hr : o.runs rss = some (rs, o')) :
    (o'.rest = itr ∨ ∃ xs pre ys, itr = some xs ∧ o'.rest = some ys ∧ xs = pre ++ ys) ∧
    ((∀ s symbols, (o'.run s symbols).map (fun x => (x.1, x.2.1)) = Pat.runFrom s symbols p o'.rest index) ∨
      ∃ r ∈ rss, ¬ BoundToEdges r.2 (itemAt p index).name ∧ ∀ s symbols, ¬ BoundToEdges symbols (itemAt p index).name →
        (∀ n, SymbolAllows r.2 (itemAt p index).name n → SymbolAllows symbols (itemAt p index).name n) →
        ∃ f : List Nat → List Nat, (∀ xs, (f xs).Sublist xs ∧
            ∀ n, (f xs).count n = xs.count n ∧ SymbolAllows r.2 (itemAt p index).name n ∨
              (f xs).count n = 0 ∧ ¬ SymbolAllows r.2 (itemAt p index).name n) ∧
          (o'.run s symbols).map (fun x => (x.1, x.2.1)) = Pat.runFrom s symbols p (o'.rest.map f) index) := by
  obtain ⟨h1, h2⟩ := (PlanLeft.make ho (rss.map Prod.snd)).runs (fun r hr => List.mem_map_of_mem hr) hr
  obtain ⟨plan, hp, rfl⟩ := make_plan ho
  refine ⟨h2, ?_⟩
  by_cases hi : index % 2 = 0
  · cases hf : o'.filtered with
    | none =>
      left
      intro s symbols
      exact PlanFor.run_eq ⟨h1.plan, fun _ c hc => (by rw [hf] at hc; cases hc), fun _ c hc => (by rw [hf] at hc; cases hc)⟩ s
    | some c =>
      right
      obtain ⟨symbols1, hm, hc⟩ := h1.filtered hi c hf
      obtain ⟨r, hr1, rfl⟩ := List.mem_map.1 hm
      rcases constrained_iff (symbols := r.2) (it := itemAt p index) with ⟨_, e, he⟩ | ⟨hb, c', hc', hall⟩
      · rw [hc] at he; cases he
      · rw [hc] at hc'
        cases hc'
        refine ⟨r, hr1, hb, fun s symbols hb2 himp => ⟨fun xs => xs.filter (allows c), fun xs => ⟨List.filter_sublist, fun n => ?_⟩, ?_⟩⟩
        · by_cases hn : SymbolAllows r.2 (itemAt p index).name n
          · exact .inl ⟨List.count_filter ((hall n).2 hn), hn⟩
          · exact .inr ⟨List.count_eq_zero.2 fun hm => hn ((hall n).1 (List.mem_filter.1 hm).2), hn⟩
        · rcases constrained_iff (symbols := symbols) (it := itemAt p index) with ⟨hb3, _⟩ | ⟨_, c2, hc2, hall2⟩
          · exact absurd hb3 hb2
          · have h3 : PlanFor p index symbols { o' with rest := o'.rest.map (fun xs => xs.filter (allows c)), filtered := some c2 } :=
              ⟨h1.plan, fun _ c' hc' => (by cases hc'; exact hc2), fun h' => absurd hi h'⟩
            rw [← h3.run_eq s]
            obtain ⟨itr', hp'⟩ := h1.plan
            obtain ⟨sts, hst, -, -⟩ := plan_reads hp'
            unfold PlanObj.run
            simp only [hst, hi, if_true, hf]
            cases hrest : o'.rest with
            | none => rfl
            | some xs =>
              simp only [Option.map_some]
              have key : ∀ body : Nat → Run → Out, ∀ r0 : Run,
                  (forEachLeft (fun n => (itemAt p index).nodeOk s n && allows c n) body xs r0).map (fun x => (x.1, x.2.1)) =
                  (forEachLeft (fun n => (itemAt p index).nodeOk s n && allows c2 n) body (xs.filter (allows c)) r0).map
                    (fun x => (x.1, x.2.1)) := by
                intro body r0
                rw [forEachLeft_eq, forEachLeft_eq, List.filter_filter]
                congr 1
                apply List.filter_congr
                intro n _
                cases ha : allows c n with
                | false => simp
                | true =>
                  have := (hall2 n).2 (himp n ((hall n).1 ha))
                  simp [this]
              have key := key (fun x r => visit symbols { ix := index, item := itemAt p index, proc := .nodes itr' }
                (runSteps s symbols o'.plan sts) (.node x) r) { result := o'.result }
              revert key
              generalize forEachLeft _ _ xs _ = a
              generalize forEachLeft _ _ (xs.filter _) _ = b
              intro key
              match a, b, key with
              | none, none, _ => rfl
              | some (e, r, ys), some (e', r', ys'), key =>
                simp only [Option.map_some, Option.some.injEq, Prod.mk.injEq] at key
                obtain ⟨rfl, rfl⟩ := key
                rfl
  · left
    intro s symbols
    exact PlanFor.run_eq ⟨h1.plan, fun h' => absurd h' hi, h1.unfiltered⟩ s

/-! ## Examples -/

/-- what the runs of a plan with these symbols return: the error, and the nodes that `a` is in the reports -/
def runsNodes (p : Pattern) (symbols0 : Symbols) (ss : List Symbols) : Option (List (Option Err × List (Option Res))) :=
  (run twoRunsOps).bind fun s => (getPlan s symbols0 p).bind fun o =>
    (o.runs (ss.map (fun x => (s, x)))).map (fun r => r.1.map (fun x => (x.1, x.2.map (fun y => AMap.get y.2 "a"))))

/-- The first run stops at the candidate 0, because `b` is bound to edges; the second one, with no symbols, goes on with 1. -/
example : runsNodes twoRunsPattern [] [[("b", { edges := some [3] })], []] =
    some [(some (.nodeVariableExpected "b"), []), (none, [some (.node 1)])] := by decide +kernel

/-- … and if the first run bound `a` to the candidate 0, the second one has no candidates, though its symbols allow 1. -/
example : runsNodes twoRunsPattern [] [[("a", { nodes := some [0] }), ("b", { edges := some [3] })], []] =
    some [(some (.nodeVariableExpected "b"), []), (none, [])] := by decide +kernel

/-- **A later run does not look at its own symbols for the start**: it reports 1 for `a`, which is bound to 0. A new plan for
the candidates that are left reports nothing. -/
theorem C67_symbols_false :
    runsNodes twoRunsPattern [] [[("b", { edges := some [3] })], [("a", { nodes := some [0] })]] =
      some [(some (.nodeVariableExpected "b"), []), (none, [some (.node 1)])] ∧
    ((run twoRunsOps).bind (fun s => Pat.runFrom s [("a", { nodes := some [0] })] twoRunsPattern (some [1]) 0)).map
      (fun x => (x.1, x.2.length)) = some (none, 0) := by
  decide +kernel

end LPG
