import Verif.Proofs.PlanRuns
import Verif.Spec.Graph
/-!
# C67: running a plan again

A plan can be run once. The first run is the run of the pattern (`C67_first`). After a run without an error every
further run reports nothing, whatever the graph has by then (`C67_spent`); after an error the next run goes on with the
next candidate of the start (`C67_resumes`), so that a plan that was run often enough reports neither matches nor errors
(`C67_drained`).
-/
namespace LPG
namespace Pat

/-- The full property C67: two runs of a plan on the same graph with the same symbols return the same. -/
def C67_statement (s : State) (symbols : Symbols) (o : PlanObj) : Prop :=
  ∀ e out o', o.run s symbols = some (e, out, o') → ∃ o'', o'.run s symbols = some (e, out, o'')

theorem forEachLeft_eq {ok : Nat → Bool} {body : Nat → Run → Out} : ∀ {xs : List Nat} {r : Run},
    (forEachLeft ok body xs r).map (fun x => (x.1, x.2.1)) = forEach body (xs.filter ok) r
  | [], _ => rfl
  | x :: xs, r => by
    rw [forEachLeft, List.filter_cons]
    split
    · rw [forEach]
      cases hb : body x r with
      | none => rfl
      | some q =>
        obtain ⟨e, r1⟩ := q
        cases e with
        | none => exact forEachLeft_eq
        | some e => rfl
    · exact forEachLeft_eq

/-- A run that reports no error has used up the iterator; after an error fewer items are left. -/
theorem forEachLeft_left {ok : Nat → Bool} {body : Nat → Run → Out} : ∀ {xs : List Nat} {r : Run} {e : Option Err} {r' : Run}
    {ys : List Nat}, forEachLeft ok body xs r = some (e, r', ys) →
    (e = none → ys = []) ∧ ∀ err, e = some err → ∃ pre x r0, xs = pre ++ x :: ys ∧ ok x = true ∧
      forEachLeft ok body pre r = some (none, r0, []) ∧ body x r0 = some (some err, r')
  | [], r, e, r', ys, h => by
    simp only [forEachLeft, Option.some.injEq, Prod.mk.injEq] at h
    obtain ⟨rfl, rfl, rfl⟩ := h
    simp
  | x :: xs, r, e, r', ys, h => by
    rw [forEachLeft] at h
    split at h
    · rename_i hok
      cases hb : body x r with
      | none => rw [hb] at h; cases h
      | some q =>
        obtain ⟨e1, r1⟩ := q
        cases e1 with
        | some e1 =>
          rw [hb] at h
          simp only [Option.some.injEq, Prod.mk.injEq] at h
          obtain ⟨rfl, rfl, rfl⟩ := h
          refine ⟨by simp, fun err he => ?_⟩
          cases he
          exact ⟨[], x, r, rfl, hok, rfl, hb⟩
        | none =>
          rw [hb] at h
          obtain ⟨h1, h2⟩ := forEachLeft_left h
          refine ⟨h1, fun err he => ?_⟩
          obtain ⟨pre, z, r0, rfl, h3, h4, h5⟩ := h2 err he
          exact ⟨x :: pre, z, r0, rfl, h3, by rw [forEachLeft, if_pos hok, hb]; exact h4, h5⟩
    · rename_i hok
      obtain ⟨h1, h2⟩ := forEachLeft_left h
      refine ⟨h1, fun err he => ?_⟩
      obtain ⟨pre, z, r0, rfl, h3, h4, h5⟩ := h2 err he
      exact ⟨x :: pre, z, r0, rfl, h3, by rw [forEachLeft, if_neg hok]; exact h4, h5⟩

theorem make_plan {p : Pattern} {itr : Option (List Nat)} {index : Nat} {o : PlanObj} (ho : PlanObj.make p itr index = some o) :
    ∃ plan, planFrom p itr index = some plan ∧ o = { plan := plan, rest := itr, filtered := none, result := fun _ => none } := by
  unfold PlanObj.make at ho
  split at ho
  · cases ho
  · rename_i plan hp
    cases ho
    exact ⟨plan, hp, rfl⟩

/-- The plan is for the pattern and the start, and if its start was filtered, by these symbols. -/
structure PlanFor (p : Pattern) (index : Nat) (symbols : Symbols) (o : PlanObj) : Prop where
  plan : ∃ itr, planFrom p itr index = some o.plan
  filtered : index % 2 = 0 → ∀ c, o.filtered = some c → (itemAt p index).isConstrainedNodes symbols [] = .ok c
  unfiltered : index % 2 ≠ 0 → ∀ c, o.filtered = some c → c = none

theorem PlanFor.make {p : Pattern} {itr : Option (List Nat)} {index : Nat} {o : PlanObj} (ho : PlanObj.make p itr index = some o)
    (symbols : Symbols) : PlanFor p index symbols o := by
  obtain ⟨plan, hp, rfl⟩ := make_plan ho
  exact ⟨⟨itr, hp⟩, fun _ c hc => (by cases hc), fun _ c hc => (by cases hc)⟩

/-- the loop of the first processor -/
def PlanObj.loop (s : State) (symbols : Symbols) (o : PlanObj) (st : Step) (sts : List Step) (c : Option (List Nat)) :
    List Nat → Run → Option (Option Err × Run × List Nat) :=
  match st.proc with
  | .nodes _ => forEachLeft (fun n => st.item.nodeOk s n && allows c n)
      (fun x r => visit symbols st (runSteps s symbols o.plan sts) (.node x) r)
  | _ => forEachLeft (st.item.edgeOk s)
      (fun e r => visit symbols st (runSteps s symbols o.plan sts) (.path { path := [⟨e, false⟩] }) r)

theorem PlanObj.loop_is (s : State) (symbols : Symbols) (o : PlanObj) (st : Step) (sts : List Step) (c : Option (List Nat)) :
    ∃ ok body, o.loop s symbols st sts c = forEachLeft ok body := by
  unfold PlanObj.loop
  split <;> exact ⟨_, _, rfl⟩

/-- What a run does: it stops at the symbols of the start, or it goes on in the iterator. -/
theorem PlanFor.cases {p : Pattern} {index : Nat} {symbols : Symbols} {o : PlanObj} (h : PlanFor p index symbols o) (s : State) :
    (index % 2 = 0 ∧ ∃ e, (itemAt p index).isConstrainedNodes symbols [] = .error e ∧ o.run s symbols = some (some e, [], o)) ∨
    ∃ st sts c, o.plan.steps = st :: sts ∧ (index % 2 = 0 → (itemAt p index).isConstrainedNodes symbols [] = .ok c) ∧
      (index % 2 ≠ 0 → c = none) ∧ o.run s symbols =
        match o.rest with
        | none => none
        | some xs =>
          match o.loop s symbols st sts c xs { result := o.result } with
          | none => none
          | some (e, r, ys) => some (e, r.out, { o with rest := some ys, filtered := some c, result := r.result }) := by
  obtain ⟨itr, hp⟩ := h.plan
  obtain ⟨sts, hst, -, -⟩ := plan_reads hp
  by_cases hi : index % 2 = 0
  · cases hf : o.filtered with
    | some c =>
      refine .inr ⟨_, _, c, hst, fun _ => h.filtered hi c hf, fun h' => absurd hi h', ?_⟩
      unfold PlanObj.run PlanObj.loop
      rw [hst]
      simp only [hi, if_true, hf]
      rfl
    | none =>
      cases hc : (itemAt p index).isConstrainedNodes symbols [] with
      | error e =>
        refine .inl ⟨hi, e, rfl, ?_⟩
        unfold PlanObj.run
        rw [hst]
        simp only [hi, if_true, hf, hc]
      | ok c =>
        refine .inr ⟨_, _, c, hst, fun _ => rfl, fun h' => absurd hi h', ?_⟩
        unfold PlanObj.run PlanObj.loop
        rw [hst]
        simp only [hi, if_true, hf, hc]
        rfl
  · refine .inr ⟨_, _, none, hst, fun h' => absurd h' hi, fun _ => rfl, ?_⟩
    unfold PlanObj.run PlanObj.loop
    rw [hst]
    simp only [hi, if_false]
    rfl

/-- A run of a plan returns what a new plan returns for the candidates that are left. -/
theorem PlanFor.run_eq {p : Pattern} {index : Nat} {symbols : Symbols} {o : PlanObj} (h : PlanFor p index symbols o) (s : State) :
    (o.run s symbols).map (fun x => (x.1, x.2.1)) = runFrom s symbols p o.rest index := by
  obtain ⟨itr, hp⟩ := h.plan
  obtain ⟨sts', hst', hreads, hsame⟩ := plan_reads hp
  obtain ⟨plan', hp', hsp, hst2⟩ := hsame o.rest
  have hR : runFrom s symbols p o.rest index = plan'.run s symbols := by unfold runFrom; rw [hp']
  rw [hR]
  unfold Plan.run
  rw [hst2, runSteps, runStep]
  rcases h.cases s with ⟨hi, e, hc, hrun⟩ | ⟨st, sts, c, hst, hc, hc2, hrun⟩
  · rw [hrun]
    simp only [hi, if_true]
    unfold runNodes
    rw [hc]
    rfl
  · rw [hst'] at hst
    cases hst
    rw [hrun]
    have hblind : ∀ (value : Nat → Res) (x : Nat), Blind (fun _ => False)
        (fun r => visit symbols { ix := index, item := itemAt p index, proc := if index % 2 = 0 then .nodes itr else .edges itr }
          (runSteps s symbols o.plan sts') (value x) r)
        (fun r => visit symbols { ix := index, item := itemAt p index, proc := if index % 2 = 0 then .nodes o.rest else .edges o.rest }
          (runSteps s symbols plan' sts') (value x) r) := by
      intro value x
      refine Blind.visit (st := { ix := index, item := itemAt p index, proc := if index % 2 = 0 then .nodes itr else .edges itr })
        ?_ (value x)
      exact Blind.steps hsp (hreads.congr (fun i hi => .inr hi))
    have key : ∀ (ok : Nat → Bool) (value : Nat → Res) (filtered : Option (List Nat)) (xs : List Nat),
        ((match forEachLeft ok (fun x r => visit symbols
              { ix := index, item := itemAt p index, proc := if index % 2 = 0 then .nodes itr else .edges itr }
              (runSteps s symbols o.plan sts') (value x) r) xs { result := o.result } with
          | none => none
          | some (e, r, ys) => some (e, r.out, { o with rest := some ys, filtered := some filtered, result := r.result })) :
            Option (Option Err × List (Path × AMap String Res) × PlanObj)).map (fun x => (x.1, x.2.1)) =
        match forEach (fun x r => visit symbols
              { ix := index, item := itemAt p index, proc := if index % 2 = 0 then .nodes o.rest else .edges o.rest }
              (runSteps s symbols plan' sts') (value x) r) (xs.filter ok) {} with
        | none => none
        | some (e, r) => some (e, r.out) := by
      intro ok value filtered xs
      have h1 := Blind.forEach (hblind value) (xs.filter ok) { result := o.result } {} ⟨fun _ h => h.elim, rfl, rfl, rfl⟩
      rw [← forEachLeft_eq] at h1
      generalize forEach _ (xs.filter ok) {} = a at h1
      generalize forEachLeft ok _ xs _ = b at h1
      match b, a, h1 with
      | none, none, _ => rfl
      | some (e, r, ys), some (e', r'), h1 =>
        obtain ⟨h2, h3⟩ := h1
        dsimp only at h2 h3
        subst h2
        simp only [Option.map_some, h3.out]
    cases hrest : o.rest with
    | none =>
      by_cases hi : index % 2 = 0
      · simp only [hi, if_true]
        unfold runNodes
        rw [hc hi]
        rfl
      · simp only [hi, if_false]
        rfl
    | some xs =>
      rw [hrest] at key
      unfold PlanObj.loop
      by_cases hi : index % 2 = 0
      · simp only [hi, if_true] at key ⊢
        unfold runNodes
        rw [hc hi]
        refine (key (fun n => (itemAt p index).nodeOk s n && allows c n) .node c xs).trans ?_
        have : xs.filter (fun n => (itemAt p index).nodeOk s n && allows c n) =
            (xs.filter ((itemAt p index).nodeOk s)).filter (allows c) := by
          rw [List.filter_filter]
          congr 1
          funext n
          rw [Bool.and_comm]
        rw [this]
        rfl
      · simp only [hi, if_false] at key ⊢
        exact key ((itemAt p index).edgeOk s) (fun e => .path { path := [⟨e, false⟩] }) c xs

/-- The plan after a run. -/
theorem PlanFor.after {p : Pattern} {index : Nat} {symbols : Symbols} {o o' : PlanObj} (h : PlanFor p index symbols o) {s : State}
    {e : Option Err} {out : List (Path × AMap String Res)} (hr : o.run s symbols = some (e, out, o')) :
    PlanFor p index symbols o' ∧
    ((o' = o ∧ out = [] ∧ index % 2 = 0 ∧ ∃ err, (itemAt p index).isConstrainedNodes symbols [] = .error err ∧ e = some err) ∨
      (o'.filtered.isSome ∧ ∃ xs ys, o.rest = some xs ∧ o'.rest = some ys ∧ (xs = [] → e = none ∧ out = []) ∧ (e = none → ys = []) ∧
        ∀ err, e = some err → ∃ pre x, xs = pre ++ x :: ys)) := by
  rcases h.cases s with ⟨hi, err, hc, hrun⟩ | ⟨st, sts, c, hst, hc, hc2, hrun⟩
  · rw [hrun] at hr
    cases hr
    exact ⟨h, .inl ⟨rfl, rfl, hi, err, hc, rfl⟩⟩
  · rw [hrun] at hr
    cases hrest : o.rest with
    | none => rw [hrest] at hr; cases hr
    | some xs =>
      rw [hrest] at hr
      dsimp only at hr
      cases hl : o.loop s symbols st sts c xs { result := o.result } with
      | none => rw [hl] at hr; cases hr
      | some q =>
        obtain ⟨e1, r, ys⟩ := q
        rw [hl] at hr
        cases hr
        refine ⟨⟨h.plan, fun hi c' hc' => ?_, fun hi c' hc' => ?_⟩, .inr ⟨rfl, xs, ys, rfl, rfl, ?_, ?_⟩⟩
        · cases hc'
          exact hc hi
        · cases hc'
          exact hc2 hi
        · rintro rfl
          obtain ⟨ok, body, hb⟩ := o.loop_is s symbols st sts c
          rw [hb] at hl
          cases hl
          exact ⟨rfl, rfl⟩
        · obtain ⟨ok, body, hb⟩ := o.loop_is s symbols st sts c
          rw [hb] at hl
          obtain ⟨h1, h2⟩ := forEachLeft_left hl
          exact ⟨h1, fun err he => by obtain ⟨pre, x, _, h3, _⟩ := h2 err he; exact ⟨pre, x, h3⟩⟩

theorem PlanFor.runs {p : Pattern} {index : Nat} {symbols : Symbols} : ∀ {ss : List State} {o o' : PlanObj}
    {rs : List (Option Err × List (Path × AMap String Res))}, PlanFor p index symbols o →
    o.runs (ss.map (fun s => (s, symbols))) = some (rs, o') → PlanFor p index symbols o' ∧
      (o'.rest = o.rest ∨ ∃ xs pre ys, o.rest = some xs ∧ o'.rest = some ys ∧ xs = pre ++ ys)
  | [], o, o', rs, h, hr => by
    cases hr
    exact ⟨h, .inl rfl⟩
  | s :: ss, o, o', rs, h, hr => by
    rw [List.map_cons, PlanObj.runs] at hr
    cases h1 : o.run s symbols with
    | none => rw [h1] at hr; cases hr
    | some q =>
      obtain ⟨e, out, o1⟩ := q
      rw [h1] at hr
      dsimp only at hr
      cases h2 : o1.runs (ss.map (fun s => (s, symbols))) with
      | none => rw [h2] at hr; cases hr
      | some q2 =>
        obtain ⟨rs2, o2⟩ := q2
        rw [h2] at hr
        cases hr
        obtain ⟨h3, h4⟩ := h.after h1
        obtain ⟨h5, h6⟩ := PlanFor.runs h3 h2
        refine ⟨h5, ?_⟩
        have h7 : o1.rest = o.rest ∨ ∃ xs pre ys, o.rest = some xs ∧ o1.rest = some ys ∧ xs = pre ++ ys := by
          rcases h4 with ⟨rfl, -⟩ | ⟨-, xs, ys, a1, a2, -, a3, a4⟩
          · exact .inl rfl
          · right
            cases e with
            | none => exact ⟨xs, xs, ys, a1, a2, by rw [a3 rfl]; simp⟩
            | some err =>
              obtain ⟨pre, x, a5⟩ := a4 err rfl
              exact ⟨xs, pre ++ [x], ys, a1, a2, by simp [a5]⟩
        rcases h7 with h7 | ⟨xs, pre, ys, b1, b2, b3⟩
        · rw [h7] at h6; exact h6
        · rcases h6 with h6 | ⟨xs', pre', ys', b4, b5, b6⟩
          · exact .inr ⟨xs, pre, ys, b1, by rw [h6, b2], b3⟩
          · rw [b2] at b4
            cases b4
            exact .inr ⟨xs, pre ++ pre', ys', b1, b5, by rw [b3, b6, List.append_assoc]⟩

end Pat

/-! ## The theorems -/

open Pat

/-- The first run of a plan is the run of the pattern from the start that the plan was made for. -/
theorem C67_first (p : Pattern) (itr : Option (List Nat)) (index : Nat) (o : PlanObj) (ho : PlanObj.make p itr index = some o)
    (s : State) (symbols : Symbols) :
    (o.run s symbols).map (fun x => (x.1, x.2.1)) = Pat.runFrom s symbols p itr index := by
  have h := (PlanFor.make ho symbols).run_eq s
  obtain ⟨plan, hp, rfl⟩ := make_plan ho
  exact h

/-- `GetPlan` and a first run are a search for the pattern. -/
theorem C67_search (s : State) (symbols : Symbols) (p : Pattern) (o : PlanObj) (ho : getPlan s symbols p = some o) :
    (o.run s symbols).map (fun x => (x.1, x.2.1)) = Pattern.run s symbols p := by
  unfold getPlan at ho
  unfold Pattern.run
  cases hf : getFastestElement s symbols p with
  | none => rw [hf] at ho; cases ho
  | some q =>
    obtain ⟨itr, index⟩ := q
    rw [hf] at ho
    exact C67_first p itr index o ho s symbols

/-- After any runs with the same symbols, on any states of the graph, a plan has a tail of its candidates left, and returns what
a new plan for these would. -/
theorem C67_resumes (p : Pattern) (itr : Option (List Nat)) (index : Nat) (o : PlanObj) (ho : PlanObj.make p itr index = some o)
    (symbols : Symbols) (ss : List State) (rs : List (Option Err × List (Path × AMap String Res))) (o' : PlanObj)
    (hr : o.runs (ss.map (fun s => (s, symbols))) = some (rs, o')) :
    (∀ s, (o'.run s symbols).map (fun x => (x.1, x.2.1)) = Pat.runFrom s symbols p o'.rest index) ∧
    (o'.rest = itr ∨ ∃ xs pre ys, itr = some xs ∧ o'.rest = some ys ∧ xs = pre ++ ys) := by
  obtain ⟨h1, h2⟩ := (PlanFor.make ho symbols).runs hr
  obtain ⟨plan, hp, rfl⟩ := make_plan ho
  exact ⟨fun s => h1.run_eq s, h2⟩

/-- A run without an error is the last one that reports anything: from then on the plan reports nothing and returns no error,
for every graph and all symbols. -/
theorem C67_spent (p : Pattern) (itr : Option (List Nat)) (index : Nat) (o : PlanObj) (ho : PlanObj.make p itr index = some o)
    (symbols : Symbols) (ss : List State) (rs : List (Option Err × List (Path × AMap String Res))) (o1 o' : PlanObj)
    (hr : o.runs (ss.map (fun s => (s, symbols))) = some (rs, o1)) (s : State) (out : List (Path × AMap String Res))
    (hn : o1.run s symbols = some (none, out, o')) (s' : State) (symbols' : Symbols) :
    o'.run s' symbols' = some (none, [], o') := by
  obtain ⟨h1, -⟩ := (PlanFor.make ho symbols).runs hr
  obtain ⟨h2, h3⟩ := h1.after hn
  rcases h3 with ⟨-, -, -, err, -, h4⟩ | ⟨hf, xs, ys, -, h4, -, h5, -⟩
  · cases h4
  · rw [h5 rfl] at h4
    obtain ⟨itr', hp⟩ := h2.plan
    obtain ⟨sts, hst, -, -⟩ := plan_reads hp
    obtain ⟨c, hc⟩ := Option.isSome_iff_exists.1 hf
    obtain ⟨plan, rest, filtered, result⟩ := o'
    dsimp only at hst h4 hc
    subst h4 hc
    unfold PlanObj.run
    dsimp only
    rw [hst]
    by_cases hi : index % 2 = 0
    · simp only [hi, if_true, forEachLeft]
    · simp only [hi, if_false, forEachLeft, h2.unfiltered hi c rfl]

/-- Every run that reports something or returns an error uses up a candidate of the start, unless its error is that the name
of the start is bound to edges. -/
theorem C67_drained (p : Pattern) (xs : List Nat) (index : Nat) (o : PlanObj) (ho : PlanObj.make p (some xs) index = some o)
    (symbols : Symbols) (hs : index % 2 = 0 → ∀ sym, AMap.get symbols (itemAt p index).name = some sym → sym.edges = none)
    (ss : List State) (rs : List (Option Err × List (Path × AMap String Res))) (o' : PlanObj)
    (hr : o.runs (ss.map (fun s => (s, symbols))) = some (rs, o')) :
    (rs.filter (fun r => r.1.isSome || !r.2.isEmpty)).length ≤ xs.length := by
  have main : ∀ (ss : List State) (o o' : PlanObj) (rs : List (Option Err × List (Path × AMap String Res))) (xs : List Nat),
      PlanFor p index symbols o → o.rest = some xs → o.runs (ss.map (fun s => (s, symbols))) = some (rs, o') →
      (rs.filter (fun r => r.1.isSome || !r.2.isEmpty)).length ≤ xs.length := by
    intro ss
    induction ss with
    | nil => intro o o' rs xs _ _ hr; cases hr; simp
    | cons s ss ih =>
      intro o o' rs xs h hx hr
      rw [List.map_cons, PlanObj.runs] at hr
      cases h1 : o.run s symbols with
      | none => rw [h1] at hr; cases hr
      | some q =>
        obtain ⟨e, out, o1⟩ := q
        rw [h1] at hr
        dsimp only at hr
        cases h2 : o1.runs (ss.map (fun s => (s, symbols))) with
        | none => rw [h2] at hr; cases hr
        | some q2 =>
          obtain ⟨rs2, o2⟩ := q2
          rw [h2] at hr
          cases hr
          obtain ⟨h3, h4⟩ := h.after h1
          rcases h4 with ⟨-, -, hi, err, hc, -⟩ | ⟨-, xs', ys, a1, a2, a3, a4, a5⟩
          · exfalso
            unfold Item.isConstrainedNodes at hc
            dsimp only at hc
            split at hc
            · cases hc
            · simp only [AMap.get] at hc
              cases hg : AMap.get symbols (itemAt p index).name with
              | none => rw [hg] at hc; cases hc
              | some sym =>
                rw [hg] at hc
                simp only [hs hi sym hg, Option.isSome_none, Bool.false_eq_true, if_false] at hc
                cases hc
          · rw [hx] at a1
            cases a1
            have h5 := ih o1 o' rs2 ys h3 a2 h2
            rw [List.filter_cons]
            cases e with
            | some err =>
              obtain ⟨pre, x, rfl⟩ := a5 err rfl
              simp only [Option.isSome_some, Bool.true_or, if_true, List.length_cons, List.length_append]
              omega
            | none =>
              have h6 := a4 rfl
              subst h6
              split
              · rename_i hb
                cases xs with
                | nil => rw [(a3 rfl).2] at hb; simp at hb
                | cons x xs => simp only [List.length_cons, List.length_nil] at h5 ⊢; omega
              · simp only [List.length_nil] at h5; omega
  obtain ⟨plan, hp, rfl⟩ := make_plan ho
  exact main ss _ o' rs xs (PlanFor.make ho symbols) rfl hr

/-! ## Examples -/

/-- Two nodes labeled A with an edge each to the same node. -/
def twoRunsOps : List Op :=
  [.newNode ["A"] [], .newNode ["A"] [], .newNode ["B"] [], .newEdge 0 2 "x" [], .newEdge 1 2 "x" []]

def twoRunsPattern : Pattern := [{ labels := ["A"], name := "a" }, {}, { name := "b" }]

/-- what the runs of a plan return: whether there is an error, and how many reports -/
def runsShow (p : Pattern) (n : Nat) : Option (List (Option Err × Nat)) :=
  (run twoRunsOps).bind fun s => (getPlan s [] p).bind fun o =>
    (o.runs ((List.replicate n s).map (fun s => (s, [])))).map (fun r => r.1.map (fun x => (x.1, x.2.length)))

/-- The first run reports both matches, the later ones nothing; if the last node has the name of the edge, the first two runs
stop at one candidate each, and the later ones return no error any more. -/
example : Spec.ValidHistory twoRunsOps ∧ runsShow twoRunsPattern 3 = some [(none, 2), (none, 0), (none, 0)] ∧
    runsShow [{ labels := ["A"], name := "a" }, { name := "b" }, { name := "b" }] 4 =
      some [(some (.nodeVariableExpected "b"), 0), (some (.nodeVariableExpected "b"), 0), (none, 0), (none, 0)] := by
  decide +kernel

/-- C67 fails. -/
theorem C67_false : ¬ ∀ ops s symbols p o, Spec.ValidHistory ops → run ops = some s → getPlan s symbols p = some o →
    C67_statement s symbols o := by
  intro h
  have w : Spec.ValidHistory twoRunsOps ∧ runsShow twoRunsPattern 2 = some [(none, 2), (none, 0)] := by decide +kernel
  obtain ⟨hv, w⟩ := w
  unfold runsShow at w
  obtain ⟨s, hs, w⟩ := Option.bind_eq_some_iff.1 w
  obtain ⟨o, ho, w⟩ := Option.bind_eq_some_iff.1 w
  obtain ⟨q, hq, w⟩ := Option.map_eq_some_iff.1 w
  have h := h twoRunsOps s [] twoRunsPattern o hv hs ho
  simp only [List.replicate, List.map_cons, List.map_nil, PlanObj.runs] at hq
  cases h1 : o.run s [] with
  | none => rw [h1] at hq; cases hq
  | some q1 =>
    obtain ⟨e1, out1, o1⟩ := q1
    obtain ⟨o2, h2⟩ := h e1 out1 o1 h1
    rw [h1] at hq
    simp only [h2] at hq
    cases hq
    simp only [List.map_cons, List.map_nil, List.cons.injEq, Prod.mk.injEq] at w
    omega

end LPG
