import Verif.Model.NodeMapAlone
/-!
# What a NodeMap is for

A caller keeps a set of nodes in the map: it adds a node that is not in it, removes a node that is, and when it gives a node of
the map other labels, tells the map with `Replace`. The map then should have these nodes under their labels.
-/
namespace LPG

/-- What the caller does. -/
inductive MapUse where
  | put (n : Nat)
  | drop (n : Nat)
  /-- other labels for a node of the map -/
  | relabel (n : Nat) (ls : List String)
  /-- other labels for a node that is not in the map -/
  | label (n : Nat) (ls : List String)
deriving DecidableEq, Repr

/-- The nodes that should be in the map, and the labels of all nodes. -/
structure MapSpec where
  nodes : List Nat
  labels : Nat → List String

def MapSpec.step (σ : MapSpec) : MapUse → MapSpec
  | .put n => { σ with nodes := σ.nodes ++ [n] }
  | .drop n => { σ with nodes := σ.nodes.filter (fun m => m ≠ n) }
  | .relabel n ls => { σ with labels := upd σ.labels n ls }
  | .label n ls => { σ with labels := upd σ.labels n ls }

def MapSpec.run : MapSpec → List MapUse → MapSpec
  | σ, [] => σ
  | σ, u :: us => (σ.step u).run us

def MapSpec.Valid (σ : MapSpec) : MapUse → Prop
  | .put n => n ∉ σ.nodes
  | .drop n => n ∈ σ.nodes
  | .relabel n _ => n ∈ σ.nodes
  | .label n _ => n ∉ σ.nodes

def MapSpec.ValidFrom : MapSpec → List MapUse → Prop
  | _, [] => True
  | σ, u :: us => σ.Valid u ∧ (σ.step u).ValidFrom us

/-- The calls of the caller. -/
def MapSpec.asCalls (σ : MapSpec) : MapUse → List MapCall
  | .put n => [.add n]
  | .drop n => [.remove n]
  | .relabel n ls => [.setLabels n ls, .replace n (σ.labels n) ls]
  | .label n ls => [.setLabels n ls]

def MapSpec.allCalls : MapSpec → List MapUse → List MapCall
  | _, [] => []
  | σ, u :: us => σ.asCalls u ++ (σ.step u).allCalls us

/-- No node of the map loses all its labels. -/
def MapSpec.NoClearing : MapSpec → List MapUse → Prop
  | _, [] => True
  | σ, u :: us => (match u with | .relabel n ls => ls = [] → σ.labels n = [] | _ => True) ∧ (σ.step u).NoClearing us

instance : (σ : MapSpec) → (u : MapUse) → Decidable (σ.Valid u)
  | σ, .put n => inferInstanceAs (Decidable (n ∉ σ.nodes))
  | σ, .drop n => inferInstanceAs (Decidable (n ∈ σ.nodes))
  | σ, .relabel n _ => inferInstanceAs (Decidable (n ∈ σ.nodes))
  | σ, .label n _ => inferInstanceAs (Decidable (n ∉ σ.nodes))

instance decValidFrom : (σ : MapSpec) → (us : List MapUse) → Decidable (σ.ValidFrom us)
  | _, [] => isTrue trivial
  | σ, u :: us => @instDecidableAnd _ _ (inferInstanceAs (Decidable (σ.Valid u))) (decValidFrom (σ.step u) us)

instance decNoClearing : (σ : MapSpec) → (us : List MapUse) → Decidable (σ.NoClearing us)
  | _, [] => isTrue trivial
  | σ, .relabel n ls :: us => @instDecidableAnd _ _ (inferInstanceAs (Decidable (ls = [] → σ.labels n = []))) (decNoClearing _ us)
  | _, .put _ :: us => @instDecidableAnd _ _ (isTrue trivial) (decNoClearing _ us)
  | _, .drop _ :: us => @instDecidableAnd _ _ (isTrue trivial) (decNoClearing _ us)
  | _, .label _ _ :: us => @instDecidableAnd _ _ (isTrue trivial) (decNoClearing _ us)

/-! ## Any calls at all -/

/-- The labels under which each node is filed, and whether it is filed as a node without labels. -/
structure Filing where
  under : Nat → List String
  bare : Nat → Bool

/-- `Add` files a node under its labels, `Remove` takes it out of those, and `Replace` moves it from the labels that are only
among the old to those that are only among the new; but if there are no new labels it leaves the node where it is. -/
def Filing.call (f : Filing) (labels : Nat → List String) : MapCall → Filing
  | .setLabels _ _ => f
  | .add n =>
    if labels n = [] then { f with bare := upd f.bare n true }
    else { f with under := upd f.under n (f.under n ++ labels n).eraseDups }
  | .remove n =>
    if labels n = [] then { f with bare := upd f.bare n false }
    else { f with under := upd f.under n ((f.under n).filter (fun l => l ∉ labels n)) }
  | .replace n old new =>
    if new = [] then (if old = [] then f else { f with bare := upd f.bare n true })
    else { under := upd f.under n
             ((f.under n).filter (fun l => ¬ (l ∈ old ∧ l ∉ new)) ++ new.filter (fun l => l ∉ old)).eraseDups,
           bare := if old = [] then upd f.bare n false else f.bare }

/-- The labels of the nodes after a call. -/
def MapCall.relabels (labels : Nat → List String) : MapCall → Nat → List String
  | .setLabels n ls => upd labels n ls
  | _ => labels

def Filing.calls : Filing → (Nat → List String) → List MapCall → Filing
  | f, _, [] => f
  | f, labels, c :: cs => (f.call labels c).calls (c.relabels labels) cs

def MapCall.relabelsAll (labels : Nat → List String) : List MapCall → Nat → List String
  | [] => labels
  | c :: cs => MapCall.relabelsAll (c.relabels labels) cs

/-- Where the nodes are filed after these calls on a new map. -/
def filedBy (labels : Nat → List String) (cs : List MapCall) : Filing :=
  Filing.calls { under := fun _ => [], bare := fun _ => false } labels cs

end LPG
