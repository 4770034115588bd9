import Verif.Proofs.Show
import Verif.Props.C19
/-!
# C66: the texts of nodes, edges, paths and sets of strings
-/
namespace LPG
open Show

/-- The texts that `String` may return for a node are exactly those that have each label and each property of the node
once, in some order, apart from properties whose value is a node or an edge. -/
theorem C66_node {ops : List Op} (hv : Spec.ValidHistory ops) {s : State} (hs : run ops = some s) (E : Env) {n : Nat}
    (hn : n ∈ (Spec.run ops).nodes) (t : Text) : OfNode E s n t ↔ NodeShown E (Spec.run ops) n t :=
  ofNode_iff (Core.run hv hs) E hn t

/-- The same for an edge. -/
theorem C66_edge {ops : List Op} (hv : Spec.ValidHistory ops) {s : State} (hs : run ops = some s) (E : Env) {e : Nat}
    (he : e ∈ (Spec.run ops).edges) (t : Text) : OfEdge E s e t ↔ EdgeShown E (Spec.run ops) e t :=
  ofEdge_iff (Core.run hv hs) E he t

/-- The texts that `String` may return for a path: one piece for each element, with a space between two pieces. -/
theorem C66_path {ops : List Op} (hv : Spec.ValidHistory ops) {s : State} (hs : run ops = some s) {E : Env}
    (hE : SpaceOk E) {p : Path} (hp : ∀ el ∈ p.path, el.edge ∈ (Spec.run ops).edges) (t : Text) :
    OfPath E s p t ↔ ∃ ps, Pieces E (Spec.run ops) p ps ∧ t = spaced ps :=
  ofPath_iff (Core.run hv hs) hE hp t

/-- Two nodes, perhaps of different graphs or at different times, that have the same text have the same labels, if no label
has a colon or a space in it. -/
theorem C66_labels {ops ops' : List Op} (hv : Spec.ValidHistory ops) {s : State} (hs : run ops = some s)
    (hv' : Spec.ValidHistory ops') {s' : State} (hs' : run ops' = some s') {E : Env} {n m : Nat}
    (hn : n ∈ (Spec.run ops).nodes) (hm : m ∈ (Spec.run ops').nodes) {t : Text} (h : OfNode E s n t) (h' : OfNode E s' m t)
    (c : ∀ l ∈ (Spec.run ops).labels n, ':' ∉ l.toList ∧ ' ' ∉ l.toList)
    (c' : ∀ l ∈ (Spec.run ops').labels m, ':' ∉ l.toList ∧ ' ' ∉ l.toList) (l : String) :
    l ∈ (Spec.run ops).labels n ↔ l ∈ (Spec.run ops').labels m :=
  labels_shown ((C66_node hv hs E hn t).1 h) ((C66_node hv' hs' E hm t).1 h') c c' l

/-- Without that condition they may differ: one label `A:B`, and two labels `A` and `B`. -/
theorem C66_labels_false : ∃ ops ops' s s' n m t, Spec.ValidHistory ops ∧ Spec.ValidHistory ops' ∧ run ops = some s ∧
    run ops' = some s' ∧ n ∈ (Spec.run ops).nodes ∧ m ∈ (Spec.run ops').nodes ∧
    (∀ E, OfNode E s n t ∧ OfNode E s' m t) ∧ "A" ∉ (Spec.run ops).labels n ∧ "A" ∈ (Spec.run ops').labels m := by
  refine ⟨[.newNode ["A:B"] []], [.newNode ["A", "B"] []], _, _, 0, 0, "(:A:B {})".toList, by decide, by decide, rfl, rfl,
    by decide, by decide, fun E => ⟨⟨["A:B"], [], .refl _, .refl _, ?_⟩, ⟨["A", "B"], [], .refl _, .refl _, ?_⟩⟩,
    by decide, by decide⟩ <;> rfl

/-- A path of one node has the empty text, like the empty path. -/
theorem C66_single (E : Env) (s : State) (n : Nat) (t : Text) : OfPath E s { only := some n } t ↔ t = [] := by
  constructor
  · rintro ⟨ts, h, rfl⟩
    cases h
    rfl
  · rintro rfl
    exact ⟨[], .nil, rfl⟩

/-- The texts that `String` may return for a set of strings, after any calls on any number of set variables: each member once,
in any order, with a comma and a space between two of them. -/
theorem C66_set (ops : List SSOp) (v : Nat) (t : Text) :
    (∃ xs : List String, xs.Perm ((SSState.run ops).heap.slice ((SSState.run ops).vars v)) ∧ t = setText xs) ↔
      SetShown (SSSpec.run ops v) t := by
  obtain ⟨hn, hm⟩ := C19_sets ops v
  constructor
  · rintro ⟨xs, hp, rfl⟩
    exact ⟨xs, hp.nodup_iff.2 hn, fun x => (hp.mem_iff).trans (hm x), setText_eq xs⟩
  · rintro ⟨xs, hx, hx', rfl⟩
    exact ⟨xs, (List.perm_ext_iff_of_nodup hx hn).2 (fun x => (hx' x).trans (hm x).symm), (setText_eq xs).symm⟩

example : SetShown (SSSpec.run [.new 0 ["A", "B"], .clone 1 0, .add 1 ["C"], .remove 1 ["A"]] 1) "C, B".toList := by
  refine ⟨["C", "B"], by decide, fun x => ?_, by decide⟩
  simp [SSSpec.run, SSSpec.step]
  grind

/-- values that are strings, and a handle -/
def showDemo : Env :=
  { text := fun v => match v with
      | .str s => s.toList
      | _ => ['?'],
    handle := fun v => match v with
      | .other 7 _ => true
      | _ => false,
    space := fun c => c == ' ' || c == '\n' }

def showOps : List Op :=
  [.newNode ["A", "B"] [("name", .str "x "), ("peer", .other 7 true)], .newNode [] [],
   .newEdge 0 1 "knows" [("since", .str "1999")]]

example : SpaceOk showDemo ∧ Spec.ValidHistory showOps ∧ (run showOps).isSome ∧
    (∀ el ∈ ({ path := [⟨2, false⟩, ⟨2, true⟩] } : Path).path, el.edge ∈ (Spec.run showOps).edges) := by
  refine ⟨by unfold SpaceOk; decide, by decide, by decide +kernel, by decide⟩

/-- the text of the node is `(:A:B {name:x })`, that of the edge `[:knows {since:1999}]` -/
example : nodeText showDemo ["A", "B"] [("name", .str "x "), ("peer", .other 7 true)] = "(:A:B {name:x })".toList ∧
    edgeText showDemo "knows" [("since", .str "1999")] = "[:knows {since:1999}]".toList ∧
    pathText showDemo [("(:A {})".toList, "( {})".toList, false), ("(:A {})".toList, "( {})".toList, true)] =
      "(:A {})->( {}) (:A {})->( {}) Reverse".toList := by
  decide +kernel

end LPG
