import Verif.Model.Show
import Verif.Spec.Graph
/-!
# What the texts of nodes, edges and paths have to be (C66)
-/
namespace LPG
namespace Show

/-- The pieces with a space between them. -/
def spaced : List Text → Text
  | [] => []
  | t :: ts => t ++ ts.flatMap (fun u => ' ' :: u)

/-- Some properties as text: `{k1:v1 k2:v2}`. -/
def braces (E : Env) (kvs : List (String × Value)) : Text :=
  '{' :: spaced (kvs.map (fun p => p.1.toList ++ ':' :: E.text p.2)) ++ ['}']

/-- `kvs` has each of the given properties once, apart from those whose value is a node or an edge. -/
def Listed (E : Env) (prop : String → Option Value) (kvs : List (String × Value)) : Prop :=
  (kvs.map Prod.fst).Nodup ∧ ∀ k v, (k, v) ∈ kvs ↔ prop k = some v ∧ E.handle v = false

/-- A text of the node: `(:A:B {k1:v1 k2:v2})`, with each label once and each property once. -/
def NodeShown (E : Env) (σ : Spec) (n : Nat) (t : Text) : Prop :=
  ∃ (ls : List String) (kvs : List (String × Value)), (ls.Nodup ∧ ∀ l, l ∈ ls ↔ l ∈ σ.labels n) ∧
    Listed E (σ.nprop n) kvs ∧ t = '(' :: ls.flatMap (fun l => ':' :: l.toList) ++ ' ' :: braces E kvs ++ [')']

/-- A text of the edge: `[:L {k1:v1 k2:v2}]`. -/
def EdgeShown (E : Env) (σ : Spec) (e : Nat) (t : Text) : Prop :=
  ∃ kvs, Listed E (σ.eprop e) kvs ∧ t = '[' :: ':' :: (σ.label e).toList ++ ' ' :: braces E kvs ++ [']']

/-- A text of the set: its members in any order, `A, B, C`. -/
def SetShown (member : String → Prop) (t : Text) : Prop :=
  ∃ xs : List String, xs.Nodup ∧ (∀ x, x ∈ xs ↔ member x) ∧
    t = match xs with
      | [] => []
      | x :: ys => x.toList ++ ys.flatMap (fun y => ", ".toList ++ y.toList)

/-- The pieces of the text of a path: for each element the text of the node its edge comes from, an arrow, the text of the
node its edge goes to, and then `Reverse` if the edge is passed backwards. -/
def Pieces (E : Env) (σ : Spec) (p : Path) (ps : List Text) : Prop :=
  List.Forall₂ (fun el t => ∃ a b, NodeShown E σ (σ.src el.edge) a ∧ NodeShown E σ (σ.dst el.edge) b ∧
    t = a ++ "->".toList ++ b ++ (if el.reverse then " Reverse".toList else [])) p.path ps

/-- What is assumed of `unicode.IsSpace`. -/
def SpaceOk (E : Env) : Prop :=
  E.space ' ' = true ∧ E.space '(' = false ∧ E.space ')' = false ∧ E.space 'e' = false

end Show
end LPG
