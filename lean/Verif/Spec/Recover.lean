import Verif.Spec.Graph
import Verif.Model.Recover
/-!
# What a call that panics in a property index amounts to
-/
namespace LPG

/-- The graph without its property indexes. -/
def State.bare (s : State) : State := { s with nodeIx := [], edgeIx := [] }

/-- A value that cannot be a key of a Go map: a slice or another value that is not comparable, perhaps wrapped. -/
inductive NoKey : Value → Prop
  | ints (l : List Int) : NoKey (.ints l)
  | strs (l : List String) : NoKey (.strs l)
  | list (l : List Value) : NoKey (.list l)
  | other (t : Nat) : NoKey (.other t false)
  | native {v : Value} : NoKey v → NoKey (.native v)

/-- The calls that a call amounts to, apart from the property indexes. The flag says that it panicked. `σ` is the graph
before it. -/
inductive Spec.Amounts (σ : Spec) : Op → Bool → List Op → Prop
  /-- a call that returns -/
  | newNode (ls : List String) (ps : Props) (b : Bool) : Amounts σ (.newNode ls ps) b [.newNode ls ps]
  | newEdge (x y : Nat) (l : String) (ps : Props) (b : Bool) : Amounts σ (.newEdge x y l ps) b [.newEdge x y l ps]
  | setLabels (n : Nat) (ls : List String) : Amounts σ (.setLabels n ls) false [.setLabels n ls]
  | setNodeProp (n : Nat) (k : String) (v : Value) (b : Bool) : Amounts σ (.setNodeProp n k v) b [.setNodeProp n k v]
  /-- the old value cannot be removed from the index -/
  | setNodeProp_kept (n : Nat) (k : String) (v : Value) (h : σ.nprop n k ≠ none) : Amounts σ (.setNodeProp n k v) true []
  | removeNodeProp (n : Nat) (k : String) : Amounts σ (.removeNodeProp n k) false [.removeNodeProp n k]
  | removeNodeProp_kept (n : Nat) (k : String) (h : σ.nprop n k ≠ none) : Amounts σ (.removeNodeProp n k) true []
  | detach (n : Nat) : Amounts σ (.detach n) false [.detach n]
  /-- the panic of an edge: the edges before it and the edge are gone, the others remain -/
  | detach_some (n : Nat) (es : List Nat) (h : ∀ e ∈ es, e ∈ σ.edges ∧ (σ.src e = n ∨ σ.dst e = n)) (hn : es.Nodup) (h0 : es ≠ []) :
      Amounts σ (.detach n) true (es.map .removeEdge)
  | detachRemove (n : Nat) (b : Bool) : Amounts σ (.detachRemove n) b [.detachRemove n]
  | detachRemove_some (n : Nat) (es : List Nat) (h : ∀ e ∈ es, e ∈ σ.edges ∧ (σ.src e = n ∨ σ.dst e = n)) (hn : es.Nodup) (h0 : es ≠ []) :
      Amounts σ (.detachRemove n) true (es.map .removeEdge)
  | setEdgeLabel (e : Nat) (l : String) : Amounts σ (.setEdgeLabel e l) false [.setEdgeLabel e l]
  | setEdgeProp (e : Nat) (k : String) (v : Value) (b : Bool) : Amounts σ (.setEdgeProp e k v) b [.setEdgeProp e k v]
  | setEdgeProp_kept (e : Nat) (k : String) (v : Value) (h : σ.eprop e k ≠ none) : Amounts σ (.setEdgeProp e k v) true []
  | removeEdgeProp (e : Nat) (k : String) : Amounts σ (.removeEdgeProp e k) false [.removeEdgeProp e k]
  | removeEdgeProp_kept (e : Nat) (k : String) (h : σ.eprop e k ≠ none) : Amounts σ (.removeEdgeProp e k) true []
  | removeEdge (e : Nat) : Amounts σ (.removeEdge e) false [.removeEdge e]
  | addNodeIndex (k : String) (t : IndexType) (b : Bool) : Amounts σ (.addNodeIndex k t) b []
  | addEdgeIndex (k : String) (t : IndexType) (b : Bool) : Amounts σ (.addEdgeIndex k t) b []

/-- A program that recovers from the panics of the indexes has reached `s`, and what it did amounts to `ops`. Every call is
on nodes and edges of the graph. -/
inductive Reached : State → List Op → Prop
  | new : Reached State.new []
  | call {s s' : State} {ops eff : List Op} {op : Op} {b : Bool} {o : MapOrder} : Reached s ops → (Spec.run ops).Valid op →
      tryStep o s op = some (s', b) → (Spec.run ops).Amounts op b eff → run (ops ++ eff) = some s'.bare →
      Reached s' (ops ++ eff)

end LPG
