import Verif.Proofs.LiveLabels
import Verif.Proofs.LiveEach
import Verif.Props.C58
/-!
# C59: loops over the nodes with some labels that change the graph

`h.liveLabels ls evs` runs a program that holds an iterator returned by `GetNodesWithAllLabels(ls)` in the state `h`. `evs`
says when the program calls `Next` and when it calls operations of the graph. The log says what happened. Every loop body and
every history before the loop are covered.
-/
namespace LPG
open LState

/-- The model of this file agrees with `Verif.Model.Graph` on every history, and the sets of the label index have the same
items in the same order. -/
theorem C59_model (ops : List Op) : (LState.run ops).map LState.base = LPG.run ops ∧
    ∀ h, LState.run ops = some h → ∀ l,
      (h.lbl.m.get l).map (fun a => (h.lbl.sets a).items) = (h.base.byLabel.m.get l).map FSet.items := by
  refine ⟨runFrom_base ops _, ?_⟩
  have key : ∀ (ops : List Op) (g h : LState), g.lbl.Sim g.base.byLabel → g.runFrom ops = some h →
      h.lbl.Sim h.base.byLabel := by
    intro ops
    induction ops with
    | nil => intro g h w hs; simp only [LState.runFrom, Option.some.injEq] at hs; subst hs; exact w
    | cons op ops ih =>
      intro g h w hs
      rw [LState.runFrom] at hs
      split at hs
      · cases hs
      · rename_i g1 hs1
        exact ih g1 h (sim_step w hs1).1 hs
  intro h hs l
  have w := key ops _ h LMap.Sim.empty hs
  cases ha : h.lbl.m.get l with
  | none => rw [(w.gone l).1 ha]; rfl
  | some a =>
    obtain ⟨s, h1, h2⟩ := w.at ha
    rw [h1]
    exact congrArg some h2.items

/-- The full property: any valid calls between the calls of `Next`. -/
def C59_statement (ls : List String) (ops : List Op) (evs : List Event) : Prop :=
  ∀ h log h' it, LState.run ops = some h → h.liveLabels ls evs = some (log, h', it) →
    Spec.ValidHistory (ops ++ Seen.ops log) → VisitsLabelled ls ops log

theorem labels_live {ls : List String} {ops : List Op} {evs : List Event} {h h' : LState} {log : List Seen} {it : LblIt}
    (hs : LState.run ops = some h) (hl : h.liveLabels ls evs = some (log, h', it))
    (hv : Spec.ValidHistory (ops ++ Seen.ops log)) (hne : ls ≠ []) (hg : GentleLabelLoop ls ops log) :
    VisitsLabelled ls ops log ∧
      LblInv ls ((Spec.run ops).HasAll ls) h' (Spec.run (ops ++ Seen.ops log)) it (Seen.visited log) := by
  obtain ⟨hv1, hv2⟩ := Spec.validFrom_append.1 hv
  obtain ⟨it0, ho, hi⟩ := LblInv.start (Ok.run hv1 hs) hne
  rw [LState.liveLabels, ho] at hl
  obtain ⟨h1, h2, h3, h4⟩ := live_loop (Inv := LblInv ls ((Spec.run ops).HasAll ls)) (A := fun σ x => σ.HasAll ls x)
    (K := (Spec.run ops).HasAll ls) (G := fun σ Y op => σ.GentleLabels ls Y op)
    (by
      intro s σ it Y x it' hi ha
      obtain ⟨r, it1, h1, h2, -⟩ := hi.adv
      rw [ha] at h1
      cases h1
      exact h2 x rfl)
    (by
      intro s σ it Y it' hi ha
      obtain ⟨r, it1, h1, -, h2⟩ := hi.adv
      rw [ha] at h1
      cases h1
      exact h2 rfl)
    (fun s σ it Y op s' hi hv hg hs => hi.op hv hg hs) hi List.nodup_nil hl hv2 hg
  refine ⟨⟨by simpa using h1, ?_, ?_⟩, ?_⟩
  · intro p x r hp; rw [Spec.run_append]; exact h2 p x r hp
  · intro p r hp e he; simpa using h3 p r hp e he
  · rw [Spec.run_append]; simpa using h4

/-- A body may remove and relabel the nodes visited before, if it gives them none of the labels; it may give these labels to
other nodes, create nodes, and call anything else.
Missing: bodies that remove nodes not visited yet or take one of the labels from them, bodies that give one of the labels back
to a node visited before, and the empty set of labels. The property is false for each of these (`C59_false_ahead`,
`C59_false_unlabel`, `C59_false_again`; `C11` for the empty set). -/
theorem C59_partial {ls : List String} {ops : List Op} {evs : List Event} {h h' : LState} {log : List Seen} {it : LblIt}
    (hs : LState.run ops = some h) (hl : h.liveLabels ls evs = some (log, h', it))
    (hv : Spec.ValidHistory (ops ++ Seen.ops log)) (hne : ls ≠ []) (hg : GentleLabelLoop ls ops log) :
    VisitsLabelled ls ops log := (labels_live hs hl hv hne hg).1

/-- Five nodes; three have the label `a`, and two of these also `b`. -/
def labelLoopOps : List Op :=
  [.newNode ["a", "b"] [], .newNode ["a"] [], .newNode ["b", "a"] [], .newNode ["b"] [], .newNode [] [], .newEdge 0 1 "e" []]

/-- A loop over the nodes with label `a`: it removes the first, takes the label from the second, and makes two new ones. -/
def labelLoopEvents : List Event :=
  [.next, .op (.detachRemove 0), .next, .op (.setLabels 1 ["c"]), .op (.newNode ["a"] []), .next, .op (.setLabels 3 ["b", "a"]),
   .next, .op (.detachRemove 2), .next, .next]

example : ∃ h log h' it, LState.run labelLoopOps = some h ∧ h.liveLabels ["a"] labelLoopEvents = some (log, h', it) ∧
    Spec.ValidHistory (labelLoopOps ++ Seen.ops log) ∧ GentleLabelLoop ["a"] labelLoopOps log ∧
    Seen.visited log = [0, 1, 2, 6, 3] ∧ log.length = 11 := by
  refine ⟨_, _, _, _, rfl, rfl, ?_⟩
  decide +kernel

/-- The same with two labels. -/
example : ∃ h log h' it, LState.run labelLoopOps = some h ∧
    h.liveLabels ["b", "a"] [.next, .op (.setLabels 0 ["c"]), .op (.newNode ["a", "b"] []), .op (.setLabels 3 ["a", "b"]), .next,
      .op (.setLabels 2 []), .next, .next, .next] = some (log, h', it) ∧
    Spec.ValidHistory (labelLoopOps ++ Seen.ops log) ∧ GentleLabelLoop ["b", "a"] labelLoopOps log ∧
    Seen.visited log = [0, 2, 3, 6] := by
  refine ⟨_, _, _, _, rfl, rfl, ?_⟩
  decide +kernel

/-! ## Where it is false -/

/-- The body removes the node that comes next: the loop ends, though there is another node with the label. -/
theorem C59_false_ahead : ∃ ls ops evs, ls ≠ [] ∧ ¬ C59_statement ls ops evs := by
  refine ⟨["a"], labelLoopOps, [.next, .op (.detachRemove 1), .next, .next], by simp, ?_⟩
  intro h
  have := (h _ _ _ _ rfl rfl (by decide +kernel)).all [.item 0, .did (.detachRemove 1), .item 1] [] rfl 2 (by decide +kernel)
  revert this
  decide +kernel

/-- And it yields the removed node, for a removed node keeps its labels. -/
theorem C59_false_removed : ∃ ls ops evs, ls ≠ [] ∧ ¬ C59_statement ls ops evs := by
  refine ⟨["a"], labelLoopOps, [.next, .op (.detachRemove 1), .next], by simp, ?_⟩
  intro h
  have := (h _ _ _ _ rfl rfl (by decide +kernel)).alive [.item 0, .did (.detachRemove 1)] 1 [] rfl
  revert this
  decide +kernel

/-- The body takes the label from the node that comes next: the loop ends, though there is another node with the label. -/
theorem C59_false_unlabel : ∃ ls ops evs, ls ≠ [] ∧ ¬ C59_statement ls ops evs := by
  refine ⟨["a"], labelLoopOps, [.next, .op (.setLabels 1 ["c"]), .next], by simp, ?_⟩
  intro h
  have := (h _ _ _ _ rfl rfl (by decide +kernel)).all [.item 0, .did (.setLabels 1 ["c"])] [] rfl 2 (by decide +kernel)
  revert this
  decide +kernel

/-- The body takes the label from the node it is at and gives it back: the loop visits it twice. -/
theorem C59_false_again : ∃ ls ops evs, ls ≠ [] ∧ ¬ C59_statement ls ops evs := by
  refine ⟨["a"], labelLoopOps,
    [.next, .op (.setLabels 0 ["b"]), .op (.setLabels 0 ["a", "b"]), .next, .next, .next], by simp, ?_⟩
  intro h
  have := (h _ _ _ _ rfl rfl (by decide +kernel)).once
  revert this
  decide +kernel

/-! ## Loops that relabel or remove every node they visit -/

theorem LState.runFrom_append {ops ops' : List Op} : ∀ {h : LState},
    LState.runFrom h (ops ++ ops') = (LState.runFrom h ops).bind (LState.runFrom · ops') := by
  induction ops with
  | nil => intro h; rfl
  | cons op ops ih =>
    intro h
    simp only [List.cons_append, LState.runFrom]
    split
    · rfl
    · exact ih

/-- `f` relabels or removes the node it is called with. -/
def OneNode (f : Nat → Op) : Prop := ∀ x, (∃ new, f x = .setLabels x new ∧ new.Nodup) ∨ f x = .detachRemove x

theorem OneNode.next {f : Nat → Op} (hf : OneNode f) {xs : List Nat} : ∀ {σ : Spec}, (σ.runFrom (xs.map f)).next = σ.next := by
  induction xs with
  | nil => intro σ; rfl
  | cons x xs ih =>
    intro σ
    show ((σ.step (f x)).runFrom (xs.map f)).next = _
    rw [ih]
    rcases hf x with ⟨new, h, -⟩ | h <;> rw [h] <;> rfl

theorem OneNode.step {f : Nat → Op} (hf : OneNode f) {σ : Spec} {ls : List String} {x y : Nat} (h : y ≠ x) :
    (σ.step (f x)).HasAll ls y ↔ σ.HasAll ls y := by
  rcases hf x with ⟨new, h1, -⟩ | h1 <;> rw [h1]
  · simp [Spec.HasAll, Spec.step, upd_other _ _ h]
  · simp [Spec.HasAll, Spec.step, Spec.detach, h]

theorem labels_each {f : Nat → Op} (hf : OneNode f) {ops : List Op} {ls : List String} {K : Nat → Prop}
    (htot : ∀ xs : List Nat, Spec.ValidHistory (ops ++ xs.map f) → ∃ s, LPG.run (ops ++ xs.map f) = some s) (k : Nat) :
    ∀ {Y : List Nat} {h : LState} {it : LblIt}, LState.run (ops ++ Y.map f) = some h → Spec.ValidHistory (ops ++ Y.map f) →
      LblInv ls K h (Spec.run (ops ++ Y.map f)) it Y → Y.Nodup → (Spec.run ops).next ≤ Y.length + k →
      ∃ xs h' it', live LState.step (advLabels ls) h it (eachEvents f xs) = some (eachLog f xs, h', it') ∧
        LState.run (ops ++ (Y ++ xs).map f) = some h' ∧ Spec.ValidHistory (ops ++ (Y ++ xs).map f) ∧
        (∀ n, K n → n ∈ Y ++ xs) ∧ (Y ++ xs).Nodup ∧ ∀ x ∈ xs, (Spec.run (ops ++ Y.map f)).HasAll ls x := by
  induction k with
  | zero =>
    intro Y h it hs hv hi hY hk
    obtain ⟨r, it', h1, h2, h3⟩ := hi.adv
    cases r with
    | none =>
      exact ⟨[], h, it', by simp only [eachEvents, eachLog, live, h1], by simpa using hs, by simpa using hv,
        by simpa using (h3 rfl).1, by simpa using hY, by simp⟩
    | some x =>
      exfalso
      obtain ⟨h4, h5, h6⟩ := h2 x rfl
      have hlt : ∀ y ∈ Y ++ [x], y < (Spec.run ops).next := by
        intro y hy
        have := h6.lt y hy
        rwa [Spec.run_append, hf.next] at this
      have hn : (Y ++ [x]).Nodup := by
        rw [List.nodup_append]; exact ⟨hY, by simp, fun a ha b hb => by simp at hb; subst hb; rintro rfl; exact h4 ha⟩
      have := List.Subperm.length_le (List.subperm_of_subset hn (l₂ := List.range (Spec.run ops).next)
        (fun y hy => List.mem_range.2 (hlt y hy)))
      simp at this
      omega
  | succ k ih =>
    intro Y h it hs hv hi hY hk
    obtain ⟨r, it', h1, h2, h3⟩ := hi.adv
    cases r with
    | none =>
      exact ⟨[], h, it', by simp only [eachEvents, eachLog, live, h1], by simpa using hs, by simpa using hv,
        by simpa using (h3 rfl).1, by simpa using hY, by simp⟩
    | some x =>
      obtain ⟨h4, h5, h6⟩ := h2 x rfl
      have hn : (Y ++ [x]).Nodup := by
        rw [List.nodup_append]; exact ⟨hY, by simp, fun a ha b hb => by simp at hb; subst hb; rintro rfl; exact h4 ha⟩
      have hval : (Spec.run (ops ++ Y.map f)).Valid (f x) := by
        rcases hf x with ⟨new, h7, h8⟩ | h7 <;> rw [h7]
        · exact ⟨h5.1, h8⟩
        · exact h5.1
      have hgen : (Spec.run (ops ++ Y.map f)).GentleLabels ls (Y ++ [x]) (f x) := by
        rcases hf x with ⟨new, h7, h8⟩ | h7 <;> rw [h7]
        · simp only [Spec.GentleLabels]
          rw [if_pos (by simp)]
          exact fun l hl _ => h5.2 l hl
        · exact .inl (by simp)
      have e : ops ++ (Y ++ [x]).map f = (ops ++ Y.map f) ++ [f x] := by simp
      have hv' : Spec.ValidHistory (ops ++ (Y ++ [x]).map f) := by
        rw [e]; exact Spec.validFrom_append.2 ⟨hv, hval, trivial⟩
      obtain ⟨s', hs'⟩ := htot _ hv'
      obtain ⟨h', hh'⟩ : ∃ h', LState.run (ops ++ (Y ++ [x]).map f) = some h' := by
        have := runFrom_base (ops ++ (Y ++ [x]).map f) LState.new
        cases hr : LState.runFrom LState.new (ops ++ (Y ++ [x]).map f) with
        | none => rw [hr] at this; rw [show LPG.runFrom LState.new.base _ = some s' from hs'] at this; cases this
        | some h' => exact ⟨h', hr⟩
      have hst : h.step (f x) = some h' := by
        have := hh'
        rw [e, LState.run, LState.runFrom_append, show LState.runFrom LState.new (ops ++ Y.map f) = some h from hs] at this
        simp only [Option.bind_some, LState.runFrom] at this
        split at this
        · cases this
        · rename_i h2 hh; rw [hh]; exact this
      have hi' := h6.op hval hgen hst
      have e2 : (Spec.run (ops ++ Y.map f)).step (f x) = Spec.run (ops ++ (Y ++ [x]).map f) := by
        rw [e, Spec.run_append (p := ops ++ Y.map f)]; rfl
      rw [e2] at hi'
      obtain ⟨xs, h'', it'', a1, a2, a3, a4, a5, a6⟩ := ih hh' hv' hi' hn (by simp; omega)
      refine ⟨x :: xs, h'', it'', ?_, by simpa using a2, by simpa using a3, by simpa using a4, by simpa using a5, ?_⟩
      · simp only [eachEvents, eachLog, live, h1, hst, a1]
      · intro y hy
        rcases List.mem_cons.1 hy with rfl | hy2
        · exact h5
        · have := a6 y hy2
          rw [← e2, hf.step] at this
          · exact this
          · rintro rfl
            rw [List.nodup_append] at a5
            exact a5.2.2 y (by simp) y hy2 rfl

/-- A loop that calls `f` for every node it visits returns, and it visits exactly the nodes that had the labels when it began,
if the calls return. -/
theorem labels_loop {f : Nat → Op} (hf : OneNode f) {ops : List Op} {ls : List String} {h : LState}
    (hs : LState.run ops = some h) (hv : Spec.ValidHistory ops) (hne : ls ≠ [])
    (htot : ∀ xs : List Nat, Spec.ValidHistory (ops ++ xs.map f) → ∃ s, LPG.run (ops ++ xs.map f) = some s) :
    ∃ xs h' it', xs.Nodup ∧ (∀ n, n ∈ xs ↔ (Spec.run ops).HasAll ls n) ∧
      h.liveLabels ls (eachEvents f xs) = some (eachLog f xs, h', it') ∧ LState.run (ops ++ xs.map f) = some h' ∧
      Spec.ValidHistory (ops ++ xs.map f) := by
  obtain ⟨it0, ho, hi⟩ := LblInv.start (Ok.run hv hs) hne
  obtain ⟨xs, h', it', a1, a2, a3, a4, a5, a6⟩ := labels_each (Y := []) hf htot (Spec.run ops).next (by simpa using hs)
    (by simpa using hv) (by simpa using hi) List.nodup_nil (by simp)
  refine ⟨xs, h', it', by simpa using a5, fun n => ⟨fun hn => by simpa using a6 n hn, fun hn => by simpa using a4 n hn⟩, ?_,
    by simpa using a2, by simpa using a3⟩
  rw [LState.liveLabels, ho]
  exact a1

theorem runFrom_setLabels {new : Nat → List String} {xs : List Nat} : ∀ {σ : Spec}, xs.Nodup →
    (σ.runFrom (xs.map (fun x => .setLabels x (new x)))).nodes = σ.nodes ∧
    ∀ y, (σ.runFrom (xs.map (fun x => .setLabels x (new x)))).labels y = if y ∈ xs then new y else σ.labels y := by
  induction xs with
  | nil => intro σ _; exact ⟨rfl, fun y => by simp [Spec.runFrom]⟩
  | cons x xs ih =>
    intro σ hn
    obtain ⟨h1, h2⟩ := ih (σ := σ.step (.setLabels x (new x))) (List.nodup_cons.1 hn).2
    refine ⟨h1, ?_⟩
    intro y
    refine (h2 y).trans ?_
    by_cases hy : y ∈ xs
    · simp [hy]
    · by_cases hyx : y = x
      · subst hyx; simp [hy, Spec.step]
      · simp [hy, hyx, Spec.step, upd_other _ _ hyx]

theorem run_setLabels {new : Nat → List String} {xs : List Nat} : ∀ {s : State},
    ∃ s', LPG.runFrom s (xs.map (fun x => .setLabels x (new x))) = some s' := by
  induction xs with
  | nil => intro s; exact ⟨s, rfl⟩
  | cons x xs ih => intro s; exact ih (s := s.setLabels x (new x))

/-- A loop that relabels every node it visits, whatever the new labels are, returns. Then exactly the nodes that had the labels
when it began have the new ones. -/
theorem C59_relabel {ops : List Op} {ls : List String} {h : LState} (new : Nat → List String) (hn : ∀ x, (new x).Nodup)
    (hs : LState.run ops = some h) (hv : Spec.ValidHistory ops) (hne : ls ≠ []) :
    ∃ xs h' it', h.liveLabels ls (eachEvents (fun x => .setLabels x (new x)) xs) =
        some (eachLog (fun x => .setLabels x (new x)) xs, h', it') ∧
      LState.run (ops ++ xs.map (fun x => .setLabels x (new x))) = some h' ∧
      xs.Nodup ∧ (∀ n, n ∈ xs ↔ (Spec.run ops).HasAll ls n) ∧
      ∀ n ∈ (Spec.run ops).nodes, ∀ l, l ∈ h'.base.nLabels n ↔
        l ∈ if (Spec.run ops).HasAll ls n then new n else (Spec.run ops).labels n := by
  obtain ⟨xs, h', it', a1, a2, a3, a4, a5⟩ := labels_loop (f := fun x => .setLabels x (new x))
    (fun x => .inl ⟨new x, rfl, hn x⟩) hs hv hne (by
      intro xs _
      have hb := runFrom_base ops LState.new
      rw [show LState.runFrom LState.new ops = some h from hs] at hb
      rw [LPG.run, LPG.runFrom_append, show LPG.runFrom State.new ops = some h.base from hb.symm]
      exact run_setLabels)
  refine ⟨xs, h', it', a3, a4, a1, a2, ?_⟩
  intro n hnn l
  obtain ⟨b1, b2⟩ := runFrom_setLabels (new := new) (σ := Spec.run ops) a1
  have c := (Ok.run a5 a4).core
  rw [Spec.run_append] at c
  rw [(c.labels n (by rw [b1]; exact hnn)).2 l, b2]
  by_cases hx : n ∈ xs
  · rw [if_pos hx, if_pos ((a2 n).1 hx)]
  · rw [if_neg hx, if_neg (fun h => hx ((a2 n).2 h))]

theorem mem_removeNodes {xs : List Nat} : ∀ {σ : Spec} {n : Nat},
    n ∈ (σ.runFrom (xs.map .detachRemove)).nodes ↔ n ∈ σ.nodes ∧ n ∉ xs := by
  induction xs with
  | nil => intro σ n; simp [Spec.runFrom]
  | cons x xs ih =>
    intro σ n
    show n ∈ ((σ.step (.detachRemove x)).runFrom (xs.map .detachRemove)).nodes ↔ _
    rw [ih]
    simp [Spec.step, and_assoc]

/-- A loop that removes every node it visits returns, and removes exactly the nodes that had the labels when it began.
Missing: graphs with an edge that is not found under its label (C04) or an index with unsuitable values (C49), where removing
a node may panic. -/
theorem C59_remove_partial {ops : List Op} {ls : List String} {h : LState} (hs : LState.run ops = some h)
    (hv : Spec.ValidHistory ops) (hne : ls ≠ []) (hr : FiledOk ops)
    (hg : ∀ e ∈ (Spec.run ops).edges, foundUnder ops e = (Spec.run ops).label e) (hi : IndexableValues ops) :
    ∃ xs h' it', h.liveLabels ls (eachEvents .detachRemove xs) = some (eachLog .detachRemove xs, h', it') ∧
      LState.run (ops ++ xs.map .detachRemove) = some h' ∧ xs.Nodup ∧ (∀ n, n ∈ xs ↔ (Spec.run ops).HasAll ls n) ∧
      Spec.ValidHistory (ops ++ xs.map .detachRemove) ∧
      ∀ n, n ∈ (Spec.run (ops ++ xs.map .detachRemove)).nodes ↔ n ∈ (Spec.run ops).nodes ∧ ¬ (Spec.run ops).HasAll ls n := by
  obtain ⟨xs, h', it', a1, a2, a3, a4, a5⟩ := labels_loop (f := .detachRemove) (fun x => .inr rfl) hs hv hne
    (fun xs hv => C49_partial _ hv (hr.drain hg) (indexable_drain hi))
  refine ⟨xs, h', it', a3, a4, a1, a2, a5, ?_⟩
  intro n
  rw [Spec.run_append, mem_removeNodes, a2]

example : ∃ h h' it', LState.run labelLoopOps = some h ∧ Spec.ValidHistory labelLoopOps ∧ FiledOk labelLoopOps ∧
    (∀ e ∈ (Spec.run labelLoopOps).edges, foundUnder labelLoopOps e = (Spec.run labelLoopOps).label e) ∧
    h.liveLabels ["a"] (eachEvents .detachRemove [0, 1, 2]) = some (eachLog .detachRemove [0, 1, 2], h', it') ∧
    (Spec.run (labelLoopOps ++ [0, 1, 2].map .detachRemove)).nodes = [3, 4] := by
  refine ⟨_, _, _, rfl, ?_, ?_, ?_, rfl, ?_⟩ <;> decide +kernel

example : ∃ h h' it', LState.run labelLoopOps = some h ∧
    h.liveLabels ["a"] (eachEvents (fun x => .setLabels x ["z"]) [0, 1, 2]) =
      some (eachLog (fun x => .setLabels x ["z"]) [0, 1, 2], h', it') ∧ h'.base.nLabels 1 = ["z"] := by
  refine ⟨_, _, _, rfl, rfl, ?_⟩; decide +kernel

end LPG
