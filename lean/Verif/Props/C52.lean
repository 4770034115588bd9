import Verif.Proofs.PathHeap
/-!
# C52: paths do not share their elements

`PathHeap.run g grow ops` runs the calls on objects whose slices may share arrays; `PVals.run g ops` computes with values. They agree
for every way `grow` in which the runtime chooses capacities, if the caller does not use a slice that it gave to
`NewPathFromElements` any more. Without this condition they do not.
-/
namespace LPG
open PathHeap

/-- The paths that a call may change: the receiver, and the argument of `AppendPath`. -/
def changed : POp → List Nat
  | .setOnlyNode p _ | .clear p | .append p _ | .removeLast p | .removeFirst p => [p]
  | .appendPath p q => [p, q]
  | _ => []

/-- The full claim: the values of all paths, after any calls. -/
def C52_statement : Prop :=
  ∀ (g : Ends) (grow : Nat → Nat → Nat) (ops : List POp) (i : Nat),
    (PathHeap.run g grow ops).value ((PathHeap.run g grow ops).obj i) = (PVals.run g ops).path i

/-- Missing: slices of the caller that it uses after it gave them away (`C52_false`). -/
theorem C52_partial (g : Ends) (grow : Nat → Nat → Nat) {ops : List POp} (ho : OwnSlices [] ops) (i : Nat) :
    (PathHeap.run g grow ops).value ((PathHeap.run g grow ops).obj i) = (PVals.run g ops).path i := by
  obtain ⟨given, hr⟩ := Sep.run g grow Sep.init ho
  exact hr.value i

/-- The number of paths is right, too: `i < objs.length` are the paths that exist. -/
theorem C52_count_partial (g : Ends) (grow : Nat → Nat → Nat) {ops : List POp} (ho : OwnSlices [] ops) :
    (PathHeap.run g grow ops).objs.length = (PVals.run g ops).paths.length := by
  obtain ⟨given, hr⟩ := Sep.run g grow Sep.init ho
  exact hr.len

theorem PVals.step_alone (g : Ends) (w : PVals) (op : POp) {i : Nat} (hi : i < w.paths.length) (hc : i ∉ changed op) :
    (w.step g op).path i = w.path i := by
  have hset : ∀ (w : PVals) p (v : Path), i ≠ p → (w.set p v).path i = w.path i := fun w p v hne => by
    rw [path_set, if_neg (fun h => hne h.1)]
  have hnew : ∀ v : Path, (w.new v).path i = w.path i := fun v => by
    rw [path_new, if_neg (by omega)]
  have h1 : ∀ p, i ∉ [p] → i ≠ p := fun p hp he => hp (by rw [he]; exact List.mem_singleton.2 rfl)
  cases op with
  | makeSlice es cap => rfl
  | writeSlice v j e => rfl
  | fromSlice v n =>
    simp only [PVals.step]
    split
    · exact hnew _
    · rfl
  | fromElements es => exact hnew _
  | fromNode n => exact hnew _
  | clone p =>
    simp only [PVals.step]
    split
    · exact hnew _
    · rfl
  | setOnlyNode p n => exact hset _ p _ (h1 p hc)
  | clear p => exact hset _ p _ (h1 p hc)
  | append p es => exact hset _ p _ (h1 p hc)
  | appendPath p q =>
    simp only [PVals.step]
    split
    · rw [hset _ p _ (fun he => hc (by simp [changed, he])), hset _ q _ (fun he => hc (by simp [changed, he]))]
    · rfl
  | slice p s e =>
    simp only [PVals.step]
    cases (w.path p).slice g s e with
    | none => rfl
    | some v => exact hnew v
  | removeLast p =>
    simp only [PVals.step]
    cases (w.path p).only with
    | none => exact hset _ p _ (h1 p hc)
    | some n => exact hset _ p _ (h1 p hc)
  | removeFirst p =>
    simp only [PVals.step]
    cases (w.path p).only with
    | none => exact hset _ p _ (h1 p hc)
    | some n => exact hset _ p _ (h1 p hc)

theorem OwnSlices.prefix {op : POp} : ∀ {ops : List POp} {given : List Nat}, OwnSlices given (ops ++ [op]) → OwnSlices given ops
  | [], _, _ => trivial
  | o :: ops, given, h => by
    have ih := fun given => OwnSlices.prefix (op := op) (ops := ops) (given := given)
    rw [List.cons_append] at h
    cases o <;> simp only [OwnSlices] at h ⊢ <;> first | exact ih _ h | exact ⟨h.1, ih _ h.2⟩

/-- A call leaves all paths as they are but its receiver and the argument of `AppendPath`.
Missing: as in `C52_partial`. -/
theorem C52_alone_partial (g : Ends) (grow : Nat → Nat → Nat) {ops : List POp} {op : POp} (ho : OwnSlices [] (ops ++ [op]))
    {i : Nat} (hi : i < (PathHeap.run g grow ops).objs.length) (hc : i ∉ changed op) :
    (PathHeap.run g grow (ops ++ [op])).value ((PathHeap.run g grow (ops ++ [op])).obj i)
      = (PathHeap.run g grow ops).value ((PathHeap.run g grow ops).obj i) := by
  rw [C52_partial g grow ho, C52_partial g grow ho.prefix]
  rw [C52_count_partial g grow ho.prefix] at hi
  unfold PVals.run
  rw [List.foldl_append]
  exact PVals.step_alone g _ op hi hc

/-- `AppendPath` does not change the elements of its argument, if that is another path.
Missing: as in `C52_partial`. -/
theorem C52_argument_partial (g : Ends) (grow : Nat → Nat → Nat) {ops : List POp} {p q : Nat} (ho : OwnSlices [] (ops ++ [.appendPath p q]))
    (hpq : p ≠ q) :
    ((PathHeap.run g grow (ops ++ [.appendPath p q])).value ((PathHeap.run g grow (ops ++ [.appendPath p q])).obj q)).path
      = ((PathHeap.run g grow ops).value ((PathHeap.run g grow ops).obj q)).path := by
  rw [C52_partial g grow ho, C52_partial g grow ho.prefix]
  unfold PVals.run
  rw [List.foldl_append]
  show ((PVals.step g _ (.appendPath p q)).path q).path = _
  generalize ops.foldl (PVals.step g) {} = w
  simp only [PVals.step]
  split
  · rename_i hl
    rw [path_set, if_neg (fun h => hpq h.1.symm), path_set, if_pos ⟨rfl, hl.2⟩, left_appendPath]
    repeat' split
    all_goals rfl
  · rfl

/-! ## Paths that share a slice of the caller -/

def loopEnds : Ends := ⟨fun _ => 0, fun _ => 0⟩

/-- Two paths from the same slice, which has room for one more element. Then an element is appended to each. -/
def sharedOps : List POp :=
  [.makeSlice [⟨1, false⟩] 2, .fromSlice 0 1, .fromSlice 0 1, .append 0 [⟨2, false⟩], .append 1 [⟨3, false⟩]]

/-- The element appended to the second path replaces that of the first path. -/
theorem C52_false : ¬ C52_statement := by
  intro h
  have := h loopEnds (fun _ n => n) sharedOps 0
  revert this
  decide

/-- The caller writes into its slice after it gave it away; the path changes. -/
def writtenOps : List POp := [.makeSlice [⟨1, false⟩] 1, .fromSlice 0 1, .writeSlice 0 0 ⟨2, false⟩]

theorem C52_false_write :
    (PathHeap.run loopEnds (fun _ n => n) writtenOps).value ((PathHeap.run loopEnds (fun _ n => n) writtenOps).obj 0)
      = { path := [⟨2, false⟩] } ∧ (PVals.run loopEnds writtenOps).path 0 = { path := [⟨1, false⟩] } := by
  decide

/-- With a slice for each path, the condition holds; elements are appended in place, and the last path is a copy that goes on to
differ from its original. -/
def ownOps : List POp :=
  [.makeSlice [⟨1, false⟩] 4, .makeSlice [⟨7, false⟩] 4, .writeSlice 1 0 ⟨8, false⟩, .fromSlice 0 1, .fromSlice 1 1,
    .append 0 [⟨2, false⟩], .append 1 [⟨3, false⟩], .clone 0, .removeFirst 2, .append 2 [⟨9, true⟩], .appendPath 0 1]

example : OwnSlices [] ownOps ∧ 2 < (PathHeap.run loopEnds (fun _ n => 2 * n) ownOps).objs.length ∧
    (PathHeap.run loopEnds (fun _ n => 2 * n) ownOps).value ((PathHeap.run loopEnds (fun _ n => 2 * n) ownOps).obj 0)
      = { path := [⟨1, false⟩, ⟨2, false⟩, ⟨8, false⟩, ⟨3, false⟩] } ∧
    (PathHeap.run loopEnds (fun _ n => 2 * n) ownOps).value ((PathHeap.run loopEnds (fun _ n => 2 * n) ownOps).obj 2)
      = { path := [⟨2, false⟩, ⟨9, true⟩] } := by
  decide

end LPG
