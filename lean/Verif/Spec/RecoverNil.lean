import Verif.Model.RecoverNil
import Verif.Spec.Recover
import Verif.Spec.Listing
/-!
# Programs that recover from every panic

Apart from the property indexes, what such a program has done amounts to a history of calls, some of which were lost: a lost
call does nothing but use up an id.
-/
namespace LPG

/-- A call, or a lost call. -/
def Spec.stepLost (σ : Spec) : Option Op → Spec
  | none => { σ with next := σ.next + 1 }
  | some op => σ.step op

def Spec.runLost (hist : List (Option Op)) : Spec := hist.foldl Spec.stepLost Spec.new

def Listing.fromLost (v : Listing) : Spec → List (Option Op) → Listing
  | _, [] => v
  | σ, none :: h => v.fromLost (σ.stepLost none) h
  | σ, some op :: h => (v.step σ op).fromLost (σ.step op) h

/-- What the enumeration of all nodes shows. -/
def listingLost (hist : List (Option Op)) : Listing := Listing.empty.fromLost Spec.new hist

/-- The calls that a call amounts to. `NewEdge` may be lost. -/
inductive Spec.AmountsLost (σ : Spec) : Op → Bool → List (Option Op) → Prop
  | made {op : Op} {b : Bool} {eff : List Op} : σ.Amounts op b eff → AmountsLost σ op b (eff.map some)
  | lost (x y : Nat) (l : String) (ps : Props) : AmountsLost σ (.newEdge x y l ps) true [none]

/-- The same in the model, without recovering from other panics. -/
def State.stepLost (s : State) : Option Op → Option State
  | none => some s.leftNewEdge
  | some op => LPG.step s op

def runLostFrom : State → List (Option Op) → Option State
  | s, [] => some s
  | s, a :: h =>
    match s.stepLost a with
    | none => none
    | some s => runLostFrom s h

def runLost (hist : List (Option Op)) : Option State := runLostFrom State.new hist

/-- A program that recovers from every panic has reached `s`, and what it did amounts to `hist`. Every call is on nodes and
edges of the graph. -/
inductive Survived : State → List (Option Op) → Prop
  | new : Survived State.new []
  | call {s s' : State} {hist eff : List (Option Op)} {op : Op} {b : Bool} {o : MapOrder} : Survived s hist →
      (Spec.runLost hist).Valid op → recoverStep o s op = some (s', b) → (Spec.runLost hist).AmountsLost op b eff →
      (eff = [none] ↔ s.getEdges = none ∧ ∃ x y l ps, op = .newEdge x y l ps) → runLost (hist ++ eff) = some s'.bare →
      Survived s' (hist ++ eff)

end LPG
