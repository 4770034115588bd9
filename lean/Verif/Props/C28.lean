import Verif.Proofs.VPath
import Verif.Props.C05C09
/-!
# C28: variable-length path search
-/
namespace LPG
open VPath

theorem VPath.good {ops : List Op} (hv : Spec.ValidHistory ops) {s : State} (hs : run ops = some s) (d : State.Dir) :
    Good s d (Spec.run ops).nodes (Spec.run ops).edges := by
  have c := Core.run hv hs
  have hE : ∀ e ∈ (Spec.run ops).edges, s.ends.src e = (Spec.run ops).src e ∧ s.ends.dst e = (Spec.run ops).dst e :=
    fun e he => ⟨(c.eattr e he).1, (c.eattr e he).2.1⟩
  refine ⟨fun v hv' => ?_, fun e he => ?_⟩
  · obtain ⟨outs, ins, h1, h2, h3, h4, h5⟩ := C05 ops hv s hs v hv'
    cases d
    · refine ⟨ins, h2, fun e => ?_⟩
      rw [h5.mem_iff, List.mem_filter, decide_eq_true_eq]
      exact ⟨fun ⟨a, b⟩ => ⟨a, (hE e a).2.trans b⟩, fun ⟨a, b⟩ => ⟨a, (hE e a).2.symm.trans b⟩⟩
    · refine ⟨ins ++ outs, h3, fun e => ?_⟩
      rw [List.mem_append, h4.mem_iff, h5.mem_iff, List.mem_filter, List.mem_filter, decide_eq_true_eq, decide_eq_true_eq]
      constructor
      · rintro (⟨a, b⟩ | ⟨a, b⟩)
        · exact ⟨a, Or.inr ((hE e a).2.trans b)⟩
        · exact ⟨a, Or.inl ((hE e a).1.trans b)⟩
      · rintro ⟨a, b | b⟩
        · exact Or.inr ⟨a, (hE e a).1.symm.trans b⟩
        · exact Or.inl ⟨a, (hE e a).2.symm.trans b⟩
    · refine ⟨outs, h1, fun e => ?_⟩
      rw [h4.mem_iff, List.mem_filter, decide_eq_true_eq]
      exact ⟨fun ⟨a, b⟩ => ⟨a, (hE e a).1.trans b⟩, fun ⟨a, b⟩ => ⟨a, (hE e a).1.symm.trans b⟩⟩
  · obtain ⟨a, b⟩ := hE e he
    rw [a, b]
    exact c.ends e he

/-- `CollectAllPaths` over a graph reached by a history ends, does not panic, and calls the accumulator on the trails
within the bounds in a fixed order, on each once, until the accumulator returns false. The order `T` depends neither on the
accumulator nor on its variables. -/
theorem C28 (ops : List Op) (hv : Spec.ValidHistory ops) (s : State) (hs : run ops = some s) (start : Option Nat)
    (first : List Nat) (hf : ∀ e ∈ first, e ∈ (Spec.run ops).edges) (filter : Nat → Bool) (d : State.Dir) (min max : Int) :
    ∃ T : List (List PathElement), T.Nodup ∧
      (∀ es, es ∈ T ↔
        IsTrail (Spec.run ops).ends (Spec.run ops).edges filter d start first es ∧ LengthOk min max es.length) ∧
      ∀ (φ : Type) (acc : φ → Path → Bool × φ) (st : φ), collectAllPaths ⟨s, filter, d, min, max, acc⟩ start first st =
        some (runStop acc st (T.map (fun es => { only := none, path := es }))).2 := by
  have c := Core.run hv hs
  obtain ⟨u1, u2⟩ := uniqueItems_spec first
  obtain ⟨T, t1, t2, t3⟩ := firstLoop_reports (f := filter) (min := min) (max := max) (good hv hs d) start
    (uniqueItems [] first) u1 (fun e he => hf e ((u2 e).1 he))
  refine ⟨T, t1, fun es => ?_, t3⟩
  rw [t2, ← isTrail_congr (g := s.ends) (g' := (Spec.run ops).ends) hf (fun e he => ⟨(c.eattr e he).1, (c.eattr e he).2.1⟩)]
  simp only [IsTrail, u2]

/-- If the accumulator never stops the search, a recording accumulator has recorded every trail within the bounds, once. -/
theorem C28_all (ops : List Op) (hv : Spec.ValidHistory ops) (s : State) (hs : run ops = some s) (start : Option Nat)
    (first : List Nat) (hf : ∀ e ∈ first, e ∈ (Spec.run ops).edges) (filter : Nat → Bool) (d : State.Dir) (min max : Int) :
    ∃ ps : List Path, collectAllPaths ⟨s, filter, d, min, max, fun seen p => (true, seen ++ [p])⟩ start first [] = some ps ∧
      ps.Nodup ∧ ∀ p, p ∈ ps ↔ p.only = none ∧
        IsTrail (Spec.run ops).ends (Spec.run ops).edges filter d start first p.path ∧
        LengthOk min max p.path.length := by
  obtain ⟨T, t1, t2, t3⟩ := C28 ops hv s hs start first hf filter d min max
  have key : ∀ (xs seen : List Path), runStop (fun seen p => (true, seen ++ [p])) seen xs = (true, seen ++ xs) := by
    intro xs
    induction xs with
    | nil => intro seen; simp [runStop]
    | cons x xs ih => intro seen; simp [runStop, ih]
  refine ⟨_, t3 _ _ _, ?_, fun p => ?_⟩
  · rw [key]
    simp only [List.nil_append]
    exact List.Pairwise.map _ (fun a b h h' => h (congrArg Path.path h')) t1
  · rw [key]
    simp only [List.nil_append, List.mem_map, t2]
    constructor
    · rintro ⟨es, h, rfl⟩; exact ⟨rfl, h⟩
    · rintro ⟨h1, h2⟩
      refine ⟨p.path, h2, ?_⟩
      cases p; simp_all

/-- If the accumulator stops the search at a path, then the reports are the first ones of the full sequence, and exactly
the last one is a path at which it stops. -/
theorem C28_stop (ops : List Op) (hv : Spec.ValidHistory ops) (s : State) (hs : run ops = some s) (start : Option Nat)
    (first : List Nat) (hf : ∀ e ∈ first, e ∈ (Spec.run ops).edges) (filter : Nat → Bool) (d : State.Dir) (min max : Int)
    (stop : Path → Bool) :
    ∃ all ps : List Path,
      collectAllPaths ⟨s, filter, d, min, max, fun seen p => (true, seen ++ [p])⟩ start first [] = some all ∧
      collectAllPaths ⟨s, filter, d, min, max, fun seen p => (!stop p, seen ++ [p])⟩ start first [] = some ps ∧
      ((ps = all ∧ ∀ p ∈ all, stop p = false) ∨
        ∃ before p after, all = before ++ p :: after ∧ ps = before ++ [p] ∧ stop p = true ∧ ∀ q ∈ before, stop q = false) := by
  obtain ⟨T, t1, t2, t3⟩ := C28 ops hv s hs start first hf filter d min max
  refine ⟨_, _, t3 _ _ _, t3 _ _ _, ?_⟩
  generalize T.map (fun es => ({ only := none, path := es } : Path)) = xs
  have key : ∀ (xs seen : List Path),
      ((runStop (fun seen p => (!stop p, seen ++ [p])) seen xs).2 =
          (runStop (fun seen p => (true, seen ++ [p])) seen xs).2 ∧ ∀ p ∈ xs, stop p = false) ∨
        ∃ before p after, (runStop (fun seen p => (true, seen ++ [p])) seen xs).2 = seen ++ before ++ p :: after ∧
          (runStop (fun seen p => (!stop p, seen ++ [p])) seen xs).2 = seen ++ before ++ [p] ∧ stop p = true ∧
          ∀ q ∈ before, stop q = false := by
    have all : ∀ (xs seen : List Path), runStop (fun seen p => (true, seen ++ [p])) seen xs = (true, seen ++ xs) := by
      intro xs
      induction xs with
      | nil => intro seen; simp [runStop]
      | cons x xs ih => intro seen; simp [runStop, ih]
    intro xs
    induction xs with
    | nil => intro seen; left; simp [runStop]
    | cons x xs ih =>
      intro seen
      cases hx : stop x with
      | true =>
        right
        exact ⟨[], x, xs, by rw [all]; simp, by simp [runStop, hx], hx, by simp⟩
      | false =>
        have e1 : runStop (fun seen p => (!stop p, seen ++ [p])) seen (x :: xs) =
          runStop (fun seen p => (!stop p, seen ++ [p])) (seen ++ [x]) xs := by simp [runStop, hx]
        have e2 : runStop (fun seen p => (true, seen ++ [p])) seen (x :: xs) =
          runStop (fun seen p => (true, seen ++ [p])) (seen ++ [x]) xs := by simp [runStop]
        rw [e1, e2]
        rcases ih (seen ++ [x]) with ⟨a, b⟩ | ⟨before, p, after, a, b, c, dd⟩
        · left; refine ⟨a, fun p hp => ?_⟩
          rcases List.mem_cons.1 hp with rfl | hp
          · exact hx
          · exact b p hp
        · right
          refine ⟨x :: before, p, after, by rw [a]; simp, by rw [b]; simp, c, fun q hq => ?_⟩
          rcases List.mem_cons.1 hq with rfl | hq
          · exact hx
          · exact dd q hq
  have all : ∀ (xs seen : List Path), runStop (fun seen p => (true, seen ++ [p])) seen xs = (true, seen ++ xs) := by
    intro xs
    induction xs with
    | nil => intro seen; simp [runStop]
    | cons x xs ih => intro seen; simp [runStop, ih]
  rcases key xs [] with ⟨a, b⟩ | ⟨before, p, after, a, b, c, dd⟩
  · left; refine ⟨a, fun p hp => b p ?_⟩
    rw [all] at hp; simpa using hp
  · exact Or.inr ⟨before, p, after, by simpa using a, by simpa using b, c, dd⟩

/-- Every reported path is connected. -/
theorem C28_connected (g : Ends) (live : List Nat) (f : Nat → Bool) (d : State.Dir) (start : Option Nat) (first : List Nat)
    (es : List PathElement) (h : IsTrail g live f d start first es) (i : Nat) (hi : i + 1 < es.length) :
    es[i + 1].getSourceNode g = es[i].getTargetNode g := by
  obtain ⟨_, _, _, h4⟩ := h
  obtain ⟨_, _, c, o⟩ := h4 i hi
  rw [oriented_unique o]
  exact orient_source c

/-- a graph with a cycle and a self-loop: 1→1 (edge 4), 1→2 (edge 5), 2→1 (edge 7) -/
def cyclicOps : List Op := demoOps ++ [.newEdge 2 1 "b" []]

example : Spec.ValidHistory cyclicOps ∧ (run cyclicOps).isSome ∧ (Spec.run cyclicOps).edges = [4, 5, 7] := by decide +kernel

/-- a trail of the cyclic graph over all its edges, against the direction of two of them -/
example : IsTrail (Spec.run cyclicOps).ends (Spec.run cyclicOps).edges (fun _ => true) .incoming (some 1) [4, 7]
    [⟨7, true⟩, ⟨5, true⟩, ⟨4, false⟩] ∧ LengthOk 2 (-1) 3 := by
  have h : (Spec.run cyclicOps).edges = [4, 5, 7] ∧
      [4, 5, 7].map (Spec.run cyclicOps).src = [1, 1, 2] ∧ [4, 5, 7].map (Spec.run cyclicOps).dst = [1, 2, 1] := by
    decide +kernel
  simp only [List.map_cons, List.map_nil, List.cons.injEq, and_true] at h
  obtain ⟨he, ⟨s4, s5, s7⟩, d4, d5, d7⟩ := h
  refine ⟨⟨by simp, by decide, ?_, ?_⟩, by unfold LengthOk; decide⟩
  · intro pe hpe
    simp only [List.head?_cons, Option.mem_def, Option.some.injEq] at hpe
    subst hpe
    simp [Oriented, Spec.ends, s7, d7]
  · intro i hi
    have : i = 0 ∨ i = 1 := by simp at hi; omega
    rcases this with rfl | rfl <;>
      simp [Oriented, Leads, PathElement.getTargetNode, Spec.ends, he, s4, s5, s7, d4, d5, d7]

end LPG
