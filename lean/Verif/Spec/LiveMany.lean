import Verif.Model.LiveMany
import Verif.Spec.Live
/-!
# What one of several iterators sees
-/
namespace LPG

/-- the operations that a program calls -/
def Ev.ops {κ : Type} : List (Ev κ) → List Op
  | [] => []
  | .op o :: evs => o :: Ev.ops evs
  | _ :: evs => Ev.ops evs

/-- how many iterators it makes -/
def Ev.makes {κ : Type} : List (Ev κ) → Nat
  | [] => 0
  | .make _ :: evs => Ev.makes evs + 1
  | _ :: evs => Ev.makes evs

/-- the program as the iterator with number `i` sees it: the calls of its `Next`, and the operations -/
def Ev.only {κ : Type} (i : Nat) : List (Ev κ) → List Event
  | [] => []
  | .op o :: evs => .op o :: Ev.only i evs
  | .next j :: evs => if j = i then .next :: Ev.only i evs else Ev.only i evs
  | .make _ :: evs => Ev.only i evs

/-- the same of what happened -/
def Saw.only (i : Nat) : List Saw → List Seen
  | [] => []
  | .did o :: log => .did o :: Saw.only i log
  | .item j x :: log => if j = i then .item x :: Saw.only i log else Saw.only i log
  | .last j :: log => if j = i then .last :: Saw.only i log else Saw.only i log
  | .made :: log => Saw.only i log

/-- A program that makes one iterator after the history `ops`, and then calls `evs`: what happens is `log`. -/
def OneLoop (ops : List Op) (evs : List Event) (log : List Seen) : Source → Prop
  | .nodes => ∃ s s' it, run ops = some s ∧ s.liveNodes evs = some (log, s', it)
  | .labels ls => ∃ h h' it, LState.run ops = some h ∧ h.liveLabels ls evs = some (log, h', it)
  | .edges m w => ∃ h h' it, HState.run ops = some h ∧ h.liveEdges m w evs = some (log, h', it)
  | .both n w => ∃ h h' its, HState.run ops = some h ∧ h.liveBoth n w evs = some (log, h', its)
  | .nodeProp k => ∃ s s', run ops = some s ∧
    ((∃ it, s.liveNodeHash k evs = some (log, s', it)) ∨ ∃ it, s.liveNodeScan k evs = some (log, s', it))
  | .edgeProp k => (∃ s s' it, run ops = some s ∧ s.liveEdgeHash k evs = some (log, s', it)) ∨
    ∃ h h' it, HState.run ops = some h ∧ h.liveEdgeScan k evs = some (log, h', it)

end LPG
