import Verif.Proofs.Dot
import Verif.Props.C07Exact
/-!
# C45 DOT rendering is referentially consistent

`Renders` (`Verif.Spec.Dot`) says what has to happen: after the header each node is rendered once, rendered nodes have
different names, then each edge between rendered nodes is rendered once with the names of its ends, then comes the end;
all of this up to the first event that fails, and the result is its error.
-/
namespace LPG
open Dot

variable {ω ε : Type}

/-- The full property C45 for one history, one renderer and one writer. The order of the edges is open. -/
def C45_statement (ops : List Op) (d : Renderer ω ε) (out : Writer ω ε) : Prop :=
  ∀ s, run ops = some s → ∀ title w, ∃ w' err E, render d out s title w = some (w', err) ∧
    E.Perm (Spec.run ops).edges ∧
    Renders d out title (Spec.run ops).nodes E (Spec.run ops).src (Spec.run ops).dst (Spec.run ops).label w w' err

theorem Dot.Renders.congr {d : Renderer ω ε} {out : Writer ω ε} {title : String} {N E : List Nat} {src dst src' dst' : Nat → Nat}
    {label label' : Nat → String} {w w' : ω} {err : Option ε} (h1 : ∀ e ∈ E, src e = src' e) (h2 : ∀ e ∈ E, dst e = dst' e)
    (h3 : ∀ e ∈ E, label e = label' e) (h : Renders d out title N E src dst label w w' err) :
    Renders d out title N E src' dst' label' w w' err := by
  obtain ⟨done, rest, ns, es, hc, ht, h4⟩ := h
  have hsub : ∀ x ∈ es, x.edge ∈ E := by
    intro x hx
    have := List.mem_map_of_mem (f := EdgeEv.edge) hx
    rw [hc.edges] at this
    exact (List.mem_filter.1 this).1
  refine ⟨done, rest, ns, es, ⟨hc.shape, hc.nodes, hc.names, ?_, ?_⟩, ?_, h4⟩
  · rw [hc.edges]
    apply List.filter_congr
    intro e he
    rw [h1 e he, h2 e he]
  · intro x hx
    rw [← h1 _ (hsub x hx), ← h2 _ (hsub x hx)]
    exact hc.ends x hx
  · have hev : ∀ a b e err, Ev.edge ⟨a, b, e, err⟩ ∈ done → e ∈ E := by
      intro a b e err hx
      obtain ⟨e1, e2, e3, hs⟩ := hc.shape
      have : Ev.edge ⟨a, b, e, err⟩ ∈ done ++ rest := List.mem_append_left _ hx
      rw [hs] at this
      simp at this
      exact hsub _ this
    clear hc hsub h4
    induction ht with
    | nil => exact .nil
    | cons hh _ ih =>
      refine .cons ?_ (ih (fun a b e err hx => hev a b e err (List.mem_cons_of_mem _ hx)))
      cases hh with
      | text h => exact .text h
      | node h h' => exact .node h h'
      | nodeDefault h h' => exact .nodeDefault h h'
      | edge h h' => exact .edge h h'
      | edgeDefault h h' =>
        refine .edgeDefault h ?_
        rw [← h3 _ (hev _ _ _ _ (List.mem_cons_self ..))]
        exact h'

/-- For every renderer and every writer, C45 holds for the histories after which the enumerations of nodes and edges are
right. Missing: the others, for which the property is false (`C45_false`). -/
theorem C45_partial {ops : List Op} (hv : Spec.ValidHistory ops) (hc : ListOk ops)
    (hr : FiledOk ops) (d : Renderer ω ε) (out : Writer ω ε) : C45_statement ops d out := by
  intro s hs title w
  have c := Core.run hv hs
  have hN := C01_safe_partial ops hv hc s hs
  obtain ⟨_, E, hE, hp⟩ := C04_filed_partial ops hv hr s hs
  obtain ⟨w', err, h1, h2⟩ := render_ok (d := d) (out := out) hN hE c.nNodup title w
  have hin : ∀ e ∈ E, e ∈ (Spec.run ops).edges := fun e he => hp.mem_iff.1 he
  exact ⟨w', err, E, h1, hp, h2.congr (fun e he => (c.eattr e (hin e he)).1) (fun e he => (c.eattr e (hin e he)).2.1)
    (fun e he => (c.eattr e (hin e he)).2.2)⟩

/-- In every history the rendering is consistent with respect to what `GetNodes` and `GetEdges` enumerate, so edge
statements never refer to a name without a node statement. -/
theorem C45_enumerated {ops : List Op} (hv : Spec.ValidHistory ops) {s : State} (hs : run ops = some s) {E : List Nat}
    (hE : s.getEdges = some E) (d : Renderer ω ε) (out : Writer ω ε) (title : String) (w : ω) :
    ∃ N w' err, s.getNodes = some N ∧ render d out s title w = some (w', err) ∧
      Renders d out title N E s.edgeGetFrom s.edgeGetTo s.edgeGetLabel w w' err := by
  obtain ⟨N, h1, h2, _⟩ := C01_order_partial ops hv s hs
  obtain ⟨w', err, h3, h4⟩ := render_ok (d := d) (out := out) h1 hE h2 title w
  exact ⟨N, w', err, h1, h3, h4⟩

/-! ## The text -/

/-- A writer that appends to a text and never fails. -/
def buffer : Writer String Empty := fun w t => (w ++ t, none)

/-- the default renderer -/
def defaults : Renderer ω ε := ⟨none, none⟩

theorem trace_buffer {label : Nat → String} {w w' : String} {evs : List (Ev Empty)}
    (h : Trace defaults buffer label w evs w') : w' = w ++ String.join (evs.map (fun
      | .text t _ => t
      | .node x => "  " ++ x.name ++ ";\n"
      | .edge x => edgeLine x.src x.dst (label x.edge))) ∧ ∀ x, Ev.node x ∈ evs → x.rendered = true := by
  induction h with
  | nil => simp
  | cons hh _ ih =>
    obtain ⟨ih1, ih2⟩ := ih
    subst ih1
    cases hh with
    | text h1 =>
      obtain ⟨rfl, rfl⟩ := Prod.mk.inj h1
      exact ⟨by simp [String.join_cons, String.append_assoc], by simpa using ih2⟩
    | node h1 => cases h1
    | nodeDefault _ h1 =>
      obtain ⟨rfl, rfl⟩ := Prod.mk.inj h1
      exact ⟨by simp [String.join_cons, String.append_assoc], by simpa using ih2⟩
    | edge h1 => cases h1
    | edgeDefault _ h1 =>
      obtain ⟨rfl, rfl⟩ := Prod.mk.inj h1
      exact ⟨by simp [String.join_cons, String.append_assoc], by simpa using ih2⟩

/-- With the default renderer, `Render` writes one line for each node, in the order of creation, and one line for each
edge; `name` gives different names to the nodes. -/
theorem C45_text {ops : List Op} (hv : Spec.ValidHistory ops) (hc : ListOk ops)
    (hr : FiledOk ops) {s : State} (hs : run ops = some s) (title : String) :
    ∃ (name : Nat → String) (E : List Nat), E.Perm (Spec.run ops).edges ∧
      (∀ a ∈ (Spec.run ops).nodes, ∀ b ∈ (Spec.run ops).nodes, name a = name b → a = b) ∧
      render defaults buffer s title "" = some ("digraph " ++ title ++ " {\n" ++ "rankdir=\"LR\";\n" ++
        String.join ((Spec.run ops).nodes.map (fun n => "  " ++ name n ++ ";\n")) ++
        String.join (E.map (fun e => edgeLine (name ((Spec.run ops).src e)) (name ((Spec.run ops).dst e))
          ((Spec.run ops).label e))) ++ "}\n", none) := by
  have c := Core.run hv hs
  obtain ⟨w', err, E, h1, hp, done, rest, ns, es, hcm, ht, h4⟩ := C45_partial hv hc hr defaults buffer s hs title ""
  cases err with
  | some x => exact x.elim
  | none =>
    obtain ⟨rfl, _⟩ := h4
    rw [List.append_nil] at hcm
    obtain ⟨hw, hall⟩ := trace_buffer ht
    obtain ⟨e1, e2, e3, hsh⟩ := hcm.shape
    have hR : rendered ns = ns.map (fun x => (x.node, x.name)) := by
      unfold rendered
      rw [List.filter_eq_self.2]
      intro x hx
      have h5 := hall x (by rw [hsh]; simp [hx])
      cases x.err with
      | none => simpa using h5
      | some e => exact e.elim
    have hfst : (rendered ns).map Prod.fst = (Spec.run ops).nodes := by
      rw [hR, List.map_map, ← hcm.nodes]; rfl
    have hget : ∀ p ∈ rendered ns, (AMap.get (rendered ns) p.1) = some p.2 := by
      intro p hp
      exact AMap.get_of_mem (by simpa [AMap.keys, hfst] using c.nNodup) hp
    refine ⟨fun n => (AMap.get (rendered ns) n).getD "", E, hp, ?_, ?_⟩
    · intro a ha b hb hab
      rw [← hfst] at ha hb
      obtain ⟨p, hp, rfl⟩ := List.mem_map.1 ha
      obtain ⟨q, hq, rfl⟩ := List.mem_map.1 hb
      simp only [hget p hp, hget q hq, Option.getD_some] at hab
      rw [List.inj_on_of_nodup_map hcm.names hp hq hab]
    · have hE : E.filter (fun e => (Spec.run ops).src e ∈ (rendered ns).map Prod.fst ∧
          (Spec.run ops).dst e ∈ (rendered ns).map Prod.fst) = E := by
        rw [List.filter_eq_self]
        intro e he
        simp only [hfst, decide_eq_true_eq]
        exact c.ends e (hp.mem_iff.1 he)
      have hes := hcm.edges
      rw [hE] at hes
      rw [h1, hw, hsh, ← hes, ← hcm.nodes]
      have k1 : ns.map (fun x => "  " ++ x.name ++ ";\n") =
          ns.map (fun x => "  " ++ (AMap.get (rendered ns) x.node).getD "" ++ ";\n") := by
        apply List.map_congr_left
        intro x hx
        have := hget (x.node, x.name) (by rw [hR]; exact List.mem_map_of_mem hx)
        simp only [this, Option.getD_some]
      have k2 : es.map (fun x => edgeLine x.src x.dst ((Spec.run ops).label x.edge)) =
          es.map (fun x => edgeLine ((AMap.get (rendered ns) ((Spec.run ops).src x.edge)).getD "")
            ((AMap.get (rendered ns) ((Spec.run ops).dst x.edge)).getD "") ((Spec.run ops).label x.edge)) := by
        apply List.map_congr_left
        intro x hx
        obtain ⟨h5, h6⟩ := hcm.ends x hx
        have h5 := hget _ h5
        have h6 := hget _ h6
        simp only [h5, h6, Option.getD_some]
      simp only [List.map_append, List.map_map, List.map_cons, List.map_nil, Function.comp_def, k1, k2]
      simp [String.join_cons, String.append_assoc, -String.reduceAppend]

example : Spec.ValidHistory demoOps ∧ ListOk demoOps ∧ FiledOk demoOps ∧
    ((run demoOps).bind (fun s => render defaults buffer s "g" "")).map Prod.fst =
      some "digraph g {\nrankdir=\"LR\";\n  n0;\n  n1;\n  n0 -> n1 [label=\"e\"];\n  n0 -> n0 [label=\"f\"];\n}\n" := by
  decide +kernel

/-- a renderer that excludes nodes, and a writer that fails at the end: the edge from 1 to 2 and the loop are not rendered -/
example : ((run demoOps).bind (fun s => render (ω := String) ⟨some (fun _ n w => (w, n != 1, none)), none⟩
    (fun w t => if t = "}\n" then (w, some "disk full") else (w ++ t, none)) s "g" "")) =
      some ("digraph g {\nrankdir=\"LR\";\n", some "disk full") := by decide +kernel

/-! ## The negation -/

/-- A renderer that only records the nodes. -/
def recorder : Renderer (List Nat) Empty := ⟨some (fun _ n w => (w ++ [n], true, none)), some (fun _ _ _ w => (w, true, none))⟩

def discard : Writer (List Nat) Empty := fun w _ => (w, none)

theorem trace_recorder {label : Nat → String} {w w' : List Nat} {evs : List (Ev Empty)}
    (h : Trace recorder discard label w evs w') :
    w' = w ++ evs.filterMap (fun | .node x => some x.node | _ => none) := by
  induction h with
  | nil => simp
  | cons hh _ ih =>
    subst ih
    cases hh with
    | text h1 => obtain ⟨rfl, rfl⟩ := Prod.mk.inj h1; simp
    | node h1 h2 => cases h1; obtain ⟨rfl, _⟩ := Prod.mk.inj h2; simp
    | nodeDefault h1 => cases h1
    | edge h1 h2 => cases h1; obtain ⟨rfl, _⟩ := Prod.mk.inj h2; simp
    | edgeDefault h1 => cases h1

/-- C45 fails in general, because the enumeration of the nodes does (C01). -/
theorem C45_false : ¬ ∀ ops, Spec.ValidHistory ops → C45_statement ops recorder discard := by
  intro h
  obtain ⟨h1, h2, h3⟩ := C01_false_missing
  cases hr : run [.newNode [] [], .newNode [] [], .detachRemove 1, .newNode [] []] with
  | none => rw [hr] at h2; cases h2
  | some s =>
    obtain ⟨w', err, E, h4, _, done, rest, ns, es, hcm, ht, h6⟩ := h _ h1 s hr "" []
    cases err with
    | some x => exact x.elim
    | none =>
      obtain ⟨rfl, _⟩ := h6
      rw [List.append_nil] at hcm
      obtain ⟨e1, e2, e3, hsh⟩ := hcm.shape
      have hw := trace_recorder ht
      rw [hsh] at hw
      have : w' = [0, 2] := by
        rw [hw, ← h3, ← hcm.nodes]
        simp [List.filterMap_append, List.filterMap_map, Function.comp_def]
      subst this
      have hb : ((run [.newNode [] [], .newNode [] [], .detachRemove 1, .newNode [] []]).bind
          (fun s => render recorder discard s "" [])).map Prod.fst = some [0] := by decide +kernel
      rw [hr, Option.bind_some, h4] at hb
      cases hb

end LPG
