import Verif.Spec.Dot
import Verif.Proofs.Base
import Std.Data.String.ToNat
import Mathlib.Data.List.Nodup
/-!
# DOT rendering
-/
namespace LPG
namespace Dot

variable {ω ε : Type} {d : Renderer ω ε} {out : Writer ω ε}

theorem nodeId_inj {x y : Nat} (h : nodeId x = nodeId y) : x = y := by
  have : toString x = toString y := by
    have h' := congrArg String.toList h
    simp only [nodeId, String.toList_append] at h'
    exact String.toList_injective (List.append_cancel_left h')
  exact Nat.repr_injective this

theorem renderNode_happens {label : Nat → String} {id : String} {n : Nat} {w w' : ω} {r : Bool} {err : Option ε}
    (h : renderNode d out id n w = (w', r, err)) : Happens d out label w (.node ⟨id, n, r, err⟩) w' := by
  unfold renderNode at h
  split at h
  · rename_i hd
    simp only [Prod.mk.injEq] at h
    obtain ⟨h1, rfl, h2⟩ := h
    exact .nodeDefault hd (Prod.ext h1 h2)
  · rename_i hd
    exact .node hd h

theorem renderEdge_happens {s : State} {a b : String} {e : Nat} {w w' : ω} {r : Bool} {err : Option ε}
    (h : renderEdge d out s a b e w = (w', r, err)) : Happens d out s.eLabel w (.edge ⟨a, b, e, err⟩) w' := by
  unfold renderEdge at h
  split at h
  · rename_i hd
    simp only [Prod.mk.injEq] at h
    obtain ⟨h1, _, h2⟩ := h
    refine .edgeDefault hd ?_
    have h3 : defaultEdge out s a b e w = (w', err) := Prod.ext h1 h2
    unfold defaultEdge at h3
    unfold edgeLine
    by_cases hl : s.eLabel e = ""
    · simpa [State.edgeGetLabel, hl] using h3
    · simpa [State.edgeGetLabel, hl] using h3
  · rename_i hd
    exact .edge hd h

theorem Trace.append {label : Nat → String} {w w' w'' : ω} {xs ys : List (Ev ε)} (h1 : Trace d out label w xs w')
    (h2 : Trace d out label w' ys w'') : Trace d out label w (xs ++ ys) w'' := by
  induction h1 with
  | nil => exact h2
  | cons h _ ih => exact .cons h (ih h2)

theorem rendered_append (xs ys : List (NodeEv ε)) : rendered (xs ++ ys) = rendered xs ++ rendered ys := by
  simp [rendered]

/-- The map of `RenderNodesEdges` after some nodes. -/
structure NMap (x : Nat) (m : AMap Nat String) (ns : List (NodeEv ε)) : Prop where
  get : ∀ n a, m.get n = some a ↔ (n, a) ∈ rendered ns
  num : ∀ p ∈ rendered ns, ∃ y < x, p.2 = nodeId y
  nodup : ((rendered ns).map Prod.snd).Nodup

/-- What the loop over the nodes does. -/
theorem renderNodes_ok (label : Nat → String) : ∀ (N : List Nat) (x : Nat) (m : AMap Nat String) (w w' : ω)
    (m' : AMap Nat String) (err : Option ε) (ns : List (NodeEv ε)), NMap x m ns → (ns.map NodeEv.node ++ N).Nodup →
    renderNodes d out x m N w = (w', m', err) →
    ∃ ns' rest x', Trace d out label w (ns'.map .node) w' ∧ (ns' ++ rest).map NodeEv.node = N ∧
      NMap x' m' (ns ++ (ns' ++ rest)) ∧
      match err with
      | none => rest = [] ∧ ∀ x ∈ ns', x.err = none
      | some err => ∃ init last, ns' = init ++ [last] ∧ last.err = some err ∧ ∀ x ∈ init, x.err = none
  | [], x, m, w, w', m', err, ns, hm, _, h => by
    simp only [renderNodes, Prod.mk.injEq] at h
    obtain ⟨rfl, rfl, rfl⟩ := h
    exact ⟨[], [], x, .nil, rfl, by simpa using hm, rfl, by simp⟩
  | n :: N, x, m, w, w', m', err, ns, hm, hnd, h => by
    unfold renderNodes at h
    have hnd' (y : NodeEv ε) (hy : y.node = n) : ((ns ++ [y]).map NodeEv.node ++ N).Nodup := by
      simpa [hy] using hnd
    split at h
    · rename_i w1 r e1 h1
      simp only [Prod.mk.injEq] at h
      obtain ⟨rfl, rfl, rfl⟩ := h
      refine ⟨[⟨nodeId x, n, r, some e1⟩], N.map (fun n => ⟨"", n, false, none⟩), x,
        .cons (renderNode_happens h1) .nil, by simp [Function.comp_def], ?_, [], _, rfl, rfl, by simp⟩
      have : rendered (ns ++ ([⟨nodeId x, n, r, some e1⟩] ++ N.map (fun n => (⟨"", n, false, none⟩ : NodeEv ε))))
          = rendered ns := by
        simp [rendered]
      exact ⟨by rw [this]; exact hm.get, by rw [this]; exact hm.num, by rw [this]; exact hm.nodup⟩
    · rename_i w1 h1
      have hr : rendered (ns ++ [(⟨nodeId x, n, true, none⟩ : NodeEv ε)]) = rendered ns ++ [(n, nodeId x)] := by
        simp [rendered]
      have hnew : ∀ a, (n, a) ∉ rendered ns := by
        intro a ha
        have : n ∈ ns.map NodeEv.node := by
          simp only [rendered, List.mem_map, List.mem_filter] at ha ⊢
          obtain ⟨y, ⟨h1, _⟩, h2⟩ := ha
          exact ⟨y, h1, congrArg Prod.fst h2⟩
        exact (List.nodup_append.1 hnd).2.2 n this n (by simp) rfl
      have hm1 : NMap (x + 1) (m.set n (nodeId x)) (ns ++ [(⟨nodeId x, n, true, none⟩ : NodeEv ε)]) := by
        refine ⟨fun k a => ?_, fun p hp => ?_, ?_⟩
        · rw [AMap.get_set, hr, List.mem_append, ← hm.get]
          by_cases hk : k = n
          · subst hk
            have := fun a => mt (hm.get k a).1 (hnew a)
            simp [this, eq_comm]
          · simp [hk]
        · rw [hr, List.mem_append] at hp
          rcases hp with hp | hp
          · obtain ⟨y, h1, h2⟩ := hm.num p hp
            exact ⟨y, by omega, h2⟩
          · simp at hp
            exact ⟨x, by omega, by rw [hp]⟩
        · rw [hr, List.map_append, List.nodup_append]
          refine ⟨hm.nodup, by simp, ?_⟩
          intro a ha b hb hab
          simp at hb
          obtain ⟨p, hp, rfl⟩ := List.mem_map.1 ha
          obtain ⟨y, h1, h2⟩ := hm.num p hp
          rw [hab, hb] at h2
          have := nodeId_inj h2
          omega
      obtain ⟨ns', rest, x', k1, k2, k3, k4⟩ := renderNodes_ok label N _ _ _ _ _ _ _ hm1 (hnd' _ rfl) h
      refine ⟨⟨nodeId x, n, true, none⟩ :: ns', rest, x', .cons (renderNode_happens h1) k1, by simpa using k2,
        by simpa using k3, ?_⟩
      cases err with
      | none => exact ⟨k4.1, by simpa using k4.2⟩
      | some e1 =>
        obtain ⟨init, last, rfl, h2, h3⟩ := k4
        exact ⟨_ :: init, last, rfl, h2, by simpa using h3⟩
    · rename_i w1 h1
      have hr : rendered (ns ++ [(⟨nodeId x, n, false, none⟩ : NodeEv ε)]) = rendered ns := by simp [rendered]
      have hm1 : NMap x m (ns ++ [(⟨nodeId x, n, false, none⟩ : NodeEv ε)]) :=
        ⟨by rw [hr]; exact hm.get, by rw [hr]; exact hm.num, by rw [hr]; exact hm.nodup⟩
      obtain ⟨ns', rest, x', k1, k2, k3, k4⟩ := renderNodes_ok label N _ _ _ _ _ _ _ hm1 (hnd' _ rfl) h
      refine ⟨⟨nodeId x, n, false, none⟩ :: ns', rest, x', .cons (renderNode_happens h1) k1, by simpa using k2,
        by simpa using k3, ?_⟩
      cases err with
      | none => exact ⟨k4.1, by simpa using k4.2⟩
      | some e1 =>
        obtain ⟨init, last, rfl, h2, h3⟩ := k4
        exact ⟨_ :: init, last, rfl, h2, by simpa using h3⟩

/-- The edges between rendered nodes. -/
abbrev between (R : List (Nat × String)) (src dst : Nat → Nat) (e : Nat) : Bool :=
  src e ∈ R.map Prod.fst ∧ dst e ∈ R.map Prod.fst

/-- Rendering some more edges without failure, to complete a rendering that failed. -/
theorem complete_edges (R : List (Nat × String)) (src dst : Nat → Nat) : ∀ (E : List Nat), ∃ es : List (EdgeEv ε),
    es.map EdgeEv.edge = E.filter (between R src dst) ∧ ∀ x ∈ es, (src x.edge, x.src) ∈ R ∧ (dst x.edge, x.dst) ∈ R
  | [] => ⟨[], rfl, by simp⟩
  | e :: E => by
    obtain ⟨es, h1, h2⟩ := complete_edges R src dst E
    by_cases h : src e ∈ R.map Prod.fst ∧ dst e ∈ R.map Prod.fst
    · obtain ⟨p, hp, hp'⟩ := List.mem_map.1 h.1
      obtain ⟨q, hq, hq'⟩ := List.mem_map.1 h.2
      refine ⟨⟨p.2, q.2, e, none⟩ :: es, ?_, ?_⟩
      · rw [List.map_cons, h1, List.filter_cons_of_pos (by simpa only [between, decide_eq_true_eq] using h)]
      · intro x hx
        rcases List.mem_cons.1 hx with rfl | hx
        · exact ⟨by rw [← hp']; exact hp, by rw [← hq']; exact hq⟩
        · exact h2 x hx
    · refine ⟨es, ?_, h2⟩
      rw [h1, List.filter_cons_of_neg (by simpa only [between, decide_eq_true_eq] using h)]

/-- What the loop over the edges does. -/
theorem renderEdges_ok {s : State} {m : AMap Nat String} {R : List (Nat × String)}
    (hm : ∀ n a, m.get n = some a ↔ (n, a) ∈ R) : ∀ (E : List Nat) (w w' : ω) (err : Option ε),
    renderEdges d out s m E w = (w', err) →
    ∃ es rest, Trace d out s.eLabel w (es.map .edge) w' ∧
      (es ++ rest).map EdgeEv.edge = E.filter (between R s.eFrom s.eTo) ∧
      (∀ x ∈ es ++ rest, (s.eFrom x.edge, x.src) ∈ R ∧ (s.eTo x.edge, x.dst) ∈ R) ∧
      match err with
      | none => rest = [] ∧ ∀ x ∈ es, x.err = none
      | some err => ∃ init last, es = init ++ [last] ∧ last.err = some err ∧ ∀ x ∈ init, x.err = none
  | [], w, w', err, h => by
    simp only [renderEdges, Prod.mk.injEq] at h
    obtain ⟨rfl, rfl⟩ := h
    exact ⟨[], [], .nil, rfl, by simp, rfl, by simp⟩
  | e :: E, w, w', err, h => by
    unfold renderEdges at h
    simp only [State.edgeGetFrom, State.edgeGetTo] at h
    split at h
    · rename_i a b ha hb
      have ha' := (hm _ _).1 ha
      have hb' := (hm _ _).1 hb
      have hf : between R s.eFrom s.eTo e = true := by
        simp only [between, decide_eq_true_eq]
        exact ⟨List.mem_map.2 ⟨_, ha', rfl⟩, List.mem_map.2 ⟨_, hb', rfl⟩⟩
      split at h
      · rename_i w1 r e1 h1
        simp only [Prod.mk.injEq] at h
        obtain ⟨rfl, rfl⟩ := h
        obtain ⟨rest, k1, k2⟩ := complete_edges (ε := ε) R s.eFrom s.eTo E
        refine ⟨[⟨a, b, e, some e1⟩], rest, .cons (renderEdge_happens h1) .nil, ?_, ?_, [], _, rfl, rfl, by simp⟩
        · rw [List.filter_cons_of_pos hf, ← k1]; rfl
        · intro x hx
          rcases List.mem_cons.1 hx with rfl | hx
          · exact ⟨ha', hb'⟩
          · exact k2 x hx
      · rename_i w1 r h1
        obtain ⟨es, rest, k1, k2, k3, k4⟩ := renderEdges_ok hm E _ _ _ h
        refine ⟨⟨a, b, e, none⟩ :: es, rest, .cons (renderEdge_happens h1) k1, ?_, ?_, ?_⟩
        · rw [List.filter_cons_of_pos hf, ← k2]; rfl
        · intro x hx
          rcases List.mem_cons.1 hx with rfl | hx
          · exact ⟨ha', hb'⟩
          · exact k3 x hx
        · cases err with
          | none => exact ⟨k4.1, by simpa using k4.2⟩
          | some e1 =>
            obtain ⟨init, last, rfl, h2, h3⟩ := k4
            exact ⟨_ :: init, last, rfl, h2, by simpa using h3⟩
    · rename_i hno
      have hf : ¬ between R s.eFrom s.eTo e = true := by
        simp only [between, decide_eq_true_eq]
        rintro ⟨h1, h2⟩
        obtain ⟨p, hp, hp'⟩ := List.mem_map.1 h1
        obtain ⟨q, hq, hq'⟩ := List.mem_map.1 h2
        exact hno p.2 q.2 ((hm _ _).2 (by rw [← hp']; exact hp)) ((hm _ _).2 (by rw [← hq']; exact hq))
      obtain ⟨es, rest, k1, k2, k3, k4⟩ := renderEdges_ok hm E _ _ _ h
      exact ⟨es, rest, k1, by rw [List.filter_cons_of_neg hf, ← k2], k3, k4⟩

/-- `Render` does what it has to do with the nodes and the edges that the iterations of the graph give. -/
theorem render_ok {s : State} {N E : List Nat} (hN : s.getNodes = some N) (hE : s.getEdges = some E) (hnd : N.Nodup)
    (title : String) (w : ω) :
    ∃ w' err, render d out s title w = some (w', err) ∧
      Renders d out title N E s.eFrom s.eTo s.eLabel w w' err := by
  -- to complete a rendering in which no node has been rendered
  have hnone : ∀ e1 e2 e3 : Option ε, Complete title N E s.eFrom s.eTo (N.map (fun n => ⟨"", n, false, none⟩)) []
      ([.text ("digraph " ++ title ++ " {\n") e1, .text "rankdir=\"LR\";\n" e2] ++
        (N.map (fun n => (⟨"", n, false, none⟩ : NodeEv ε))).map .node ++ [].map .edge ++ [.text "}\n" e3]) := by
    intro e1 e2 e3
    have : rendered (N.map (fun n => (⟨"", n, false, none⟩ : NodeEv ε))) = [] := by simp [rendered]
    exact ⟨⟨e1, e2, e3, rfl⟩, by simp [Function.comp_def], by simp [this], by simp [this], by simp⟩
  unfold render
  split
  · rename_i w1 e1 h1
    exact ⟨_, _, rfl, [.text ("digraph " ++ title ++ " {\n") (some e1)], _, _, _, hnone (some e1) none none,
      .cons (.text h1) .nil, [], _, rfl, rfl, by simp⟩
  · rename_i w1 h1
    split
    · rename_i w2 e2 h2
      refine ⟨_, _, rfl, [.text ("digraph " ++ title ++ " {\n") none, .text "rankdir=\"LR\";\n" (some e2)], _, _, _,
        hnone none (some e2) none, .cons (.text h1) (.cons (.text h2) .nil), [.text _ none], _, rfl, rfl, ?_⟩
      simp [Ev.err]
    · rename_i w2 h2
      have hhead : Trace d out s.eLabel w
          [.text ("digraph " ++ title ++ " {\n") none, .text "rankdir=\"LR\";\n" none] w2 :=
        .cons (.text h1) (.cons (.text h2) .nil)
      unfold renderNodesEdges
      simp only [hN, hE]
      cases hr : renderNodes d out 0 [] N w2 with
      | mk w3 r =>
        obtain ⟨m, e3⟩ := r
        obtain ⟨ns, nrest, x', k1, k2, k3, k4⟩ := renderNodes_ok s.eLabel N 0 [] w2 w3 m e3 []
          ⟨by simp [rendered], by simp [rendered], by simp [rendered]⟩ (by simpa using hnd) hr
        rw [List.nil_append] at k3
        cases e3 with
        | some e3 =>
          obtain ⟨init, last, rfl, k5, k6⟩ := k4
          obtain ⟨es, l1, l2⟩ := complete_edges (ε := ε) (rendered (init ++ [last] ++ nrest)) s.eFrom s.eTo E
          refine ⟨_, _, rfl, [.text ("digraph " ++ title ++ " {\n") none, .text "rankdir=\"LR\";\n" none] ++
            (init ++ [last]).map .node, nrest.map .node ++ es.map .edge ++ [.text "}\n" none], init ++ [last] ++ nrest,
            es, ⟨⟨none, none, none, by simp⟩, k2, k3.nodup, l1, l2⟩, hhead.append k1, ?_⟩
          refine ⟨[.text ("digraph " ++ title ++ " {\n") none, .text "rankdir=\"LR\";\n" none] ++ init.map .node,
            .node last, by simp, k5, ?_⟩
          intro x hx
          simp only [List.mem_append, List.mem_cons, List.not_mem_nil, or_false, List.mem_map] at hx
          rcases hx with (rfl | rfl) | ⟨y, hy, rfl⟩
          · rfl
          · rfl
          · exact k6 y hy
        | none =>
          obtain ⟨rfl, k5⟩ := k4
          simp only [List.append_nil] at k2 k3
          cases hr' : renderEdges d out s m E w3 with
          | mk w4 e4 =>
            obtain ⟨es, erest, l1, l2, l3, l4⟩ := renderEdges_ok k3.get E _ _ _ hr'
            cases e4 with
            | some e4 =>
              obtain ⟨init, last, rfl, l5, l6⟩ := l4
              refine ⟨w4, some e4, by simp [hr'], [.text ("digraph " ++ title ++ " {\n") none, .text "rankdir=\"LR\";\n" none] ++
                ns.map .node ++ (init ++ [last]).map .edge, erest.map .edge ++ [.text "}\n" none], ns,
                init ++ [last] ++ erest, ⟨⟨none, none, none, by simp⟩, k2, k3.nodup, l2, l3⟩,
                (hhead.append k1).append l1, ?_⟩
              refine ⟨[.text ("digraph " ++ title ++ " {\n") none, .text "rankdir=\"LR\";\n" none] ++ ns.map .node ++
                init.map .edge, .edge last, by simp, l5, ?_⟩
              intro x hx
              simp only [List.mem_append, List.mem_cons, List.not_mem_nil, or_false, List.mem_map] at hx
              rcases hx with ((rfl | rfl) | ⟨y, hy, rfl⟩) | ⟨y, hy, rfl⟩
              · rfl
              · rfl
              · exact k5 y hy
              · exact l6 y hy
            | none =>
              obtain ⟨rfl, l5⟩ := l4
              simp only [List.append_nil] at l2 l3
              cases h5 : out w4 "}\n" with
              | mk w5 e5 =>
                have hall : ∀ x ∈ ([.text ("digraph " ++ title ++ " {\n") none, .text "rankdir=\"LR\";\n" none] ++
                    ns.map .node ++ es.map .edge : List (Ev ε)), x.err = none := by
                  intro x hx
                  simp only [List.mem_append, List.mem_cons, List.not_mem_nil, or_false, List.mem_map] at hx
                  rcases hx with ((rfl | rfl) | ⟨y, hy, rfl⟩) | ⟨y, hy, rfl⟩
                  · rfl
                  · rfl
                  · exact k5 y hy
                  · exact l5 y hy
                refine ⟨w5, e5, by simp [hr', h5], [.text ("digraph " ++ title ++ " {\n") none, .text "rankdir=\"LR\";\n" none] ++
                  ns.map .node ++ es.map .edge ++ [.text "}\n" e5], [], ns, es,
                  ⟨⟨none, none, e5, by simp⟩, k2, k3.nodup, l2, l3⟩,
                  ((hhead.append k1).append l1).append (.cons (.text h5) .nil), ?_⟩
                cases e5 with
                | none =>
                  refine ⟨rfl, fun x hx => ?_⟩
                  rcases List.mem_append.1 hx with hx | hx
                  · exact hall x hx
                  · simp at hx; subst hx; rfl
                | some e5 => exact ⟨_, _, rfl, rfl, hall⟩

end Dot
end LPG
