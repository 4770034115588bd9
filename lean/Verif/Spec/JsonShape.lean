import Verif.Spec.JsonGraph
import Mathlib.Data.List.Forall2
/-!
# What `encoding/json` accepts as the nodes and the edges of a document

The types of the values, field by field, and what is read from them. Nothing here refers to the functions of the model
that read values.
-/
namespace LPG.Json

/-- Equal letters, whatever the case. `encoding/json` also takes two letters outside ASCII for `s` and `k`. -/
def SameLetter (c d : Char) : Prop := c = d ∨ c = d.toUpper ∨ (c = 'ſ' ∧ d = 's') ∨ (c = '\u212a' ∧ d = 'k')

instance (c d : Char) : Decidable (SameLetter c d) := inferInstanceAs (Decidable (_ ∨ _))

/-- The key `k` names the field `f`. -/
def Names (f k : String) : Prop := List.Forall₂ SameLetter k.toList f.toList

instance (f k : String) : Decidable (Names f k) := inferInstanceAs (Decidable (List.Forall₂ _ _ _))

/-! ## Types -/

def IsInt (v : JVal) : Prop := v = .null ∨ ∃ i, v = .num i

def IsText (v : JVal) : Prop := v = .null ∨ ∃ s, v = .str s

def IsMap (v : JVal) : Prop := v = .null ∨ ∃ ms, v = .obj ms

def ListOf (T : JVal → Prop) (v : JVal) : Prop := v = .null ∨ ∃ vs, v = .arr vs ∧ ∀ x ∈ vs, T x

/-- An object; `F` says for each name of a field which values its members may have. -/
def ObjOf (F : List (String × (JVal → Prop))) (v : JVal) : Prop :=
  v = .null ∨ ∃ ms, v = .obj ms ∧ ∀ p ∈ ms, ∀ q ∈ F, Names q.1 p.1 → q.2 p.2

/-- An edge in a node. -/
def OutEdgeShape : JVal → Prop := ObjOf [("to", IsInt), ("label", IsText), ("properties", IsMap)]

/-- An edge outside of the nodes. -/
def EdgeShape : JVal → Prop := ObjOf [("from", IsInt), ("to", IsInt), ("label", IsText), ("properties", IsMap)]

def NodeShape : JVal → Prop :=
  ObjOf [("n", IsInt), ("labels", ListOf IsText), ("properties", IsMap), ("edges", ListOf OutEdgeShape)]

/-- The members of a document that can be read: the nodes and the edges have the right types. Every other member has a
value through which `Decode` counts right (see `Document`). -/
def Shape (ms : List (String × JVal)) : Prop :=
  ∀ p ∈ ms, (p.1 = "nodes" → ListOf NodeShape p.2) ∧ (p.1 = "edges" → ListOf EdgeShape p.2) ∧
    (p.1 ≠ "nodes" → p.1 ≠ "edges" → Skips p.2)

/-! ## What is read -/

/-- The values of the members of that name, in order. -/
def valuesOf (f : String) (ms : List (String × JVal)) : List JVal :=
  ms.filterMap (fun p => if Names f p.1 then some p.2 else none)

/-- What is read from a field that may be repeated: what `R` allows for its last value that is not null, or `zero` if there
is none. -/
def LastRead {α : Type} (zero : α) (R : JVal → α → Prop) (vs : List JVal) (x : α) : Prop :=
  ((∀ v ∈ vs, v = .null) ∧ x = zero) ∨ ∃ a v b, vs = a ++ v :: b ∧ v ≠ .null ∧ (∀ w ∈ b, w = .null) ∧ R v x

def IntRead (v : JVal) (i : Int) : Prop := v = .num i

def TextRead (v : JVal) (s : String) : Prop := v = .str s

def ListRead {α : Type} (R : JVal → α → Prop) (v : JVal) (l : List α) : Prop := ∃ vs, v = .arr vs ∧ List.Forall₂ R vs l

/-- A null in a list is read as the zero value. -/
def OrNull {α : Type} (zero : α) (R : JVal → α → Prop) (v : JVal) (x : α) : Prop :=
  (v = .null ∧ x = zero) ∨ (v ≠ .null ∧ R v x)

/-- The properties: the objects after the last null are joined, and if a key occurs twice, the last one counts. -/
def MapsRead (vs : List JVal) (m : AMap String JVal) : Prop :=
  ∃ (a : List JVal) (os : List (List (String × JVal))), vs = a ++ os.map .obj ∧ (a = [] ∨ a.getLast? = some .null) ∧
    ∀ k j, (k, j) ∈ m ↔ ∃ c d, os.flatten = c ++ (k, j) :: d ∧ ∀ p ∈ d, p.1 ≠ k

/-- A list that may be repeated. Only the arrays after the last null or empty array count (`As`). The list is as long as the last
one, and each of its elements is read from the elements that the arrays have at its place, in order. -/
def ListsRead {α : Type} (R : List JVal → α → Prop) (vs : List JVal) (l : List α) : Prop :=
  ∃ (a : List JVal) (As : List (List JVal)), vs = a ++ As.map .arr ∧
    (a = [] ∨ a.getLast? = some .null ∨ a.getLast? = some (.arr [])) ∧ [] ∉ As ∧ l.length = (As.getLast?.getD []).length ∧
    ∀ (j : Nat) (x : α), l[j]? = some x → R (As.filterMap (fun A => A[j]?)) x

/-- The members of the objects, one after the other. -/
def membersOf : List JVal → List (String × JVal)
  | [] => []
  | .obj ms :: vs => ms ++ membersOf vs
  | _ :: vs => membersOf vs

/-- The edge in a node. It may be given by several values, see `ListsRead`. -/
def OutEdgesRead (vs : List JVal) (x : OutEdge) : Prop :=
  LastRead 0 IntRead (valuesOf "to" (membersOf vs)) x.to ∧ LastRead "" TextRead (valuesOf "label" (membersOf vs)) x.label ∧
    MapsRead (valuesOf "properties" (membersOf vs)) x.properties

/-- The edge outside of the nodes. -/
def EdgeRead (v : JVal) (x : FullEdge) : Prop :=
  ∃ ms, v = .obj ms ∧ LastRead 0 IntRead (valuesOf "from" ms) x.from ∧ LastRead 0 IntRead (valuesOf "to" ms) x.to ∧
    LastRead "" TextRead (valuesOf "label" ms) x.label ∧ MapsRead (valuesOf "properties" ms) x.properties

def NodeRead (v : JVal) (x : DocNode) : Prop :=
  ∃ ms, v = .obj ms ∧ LastRead 0 IntRead (valuesOf "n" ms) x.n ∧
    ListsRead (LastRead "" TextRead) (valuesOf "labels" ms) x.labels ∧
    MapsRead (valuesOf "properties" ms) x.properties ∧
    ListsRead OutEdgesRead (valuesOf "edges" ms) x.edges

/-- The elements of the lists that are the values of a key. -/
def elementsOf (key : String) : List (String × JVal) → List JVal
  | [] => []
  | (k, .arr vs) :: ms => if k = key then vs ++ elementsOf key ms else elementsOf key ms
  | _ :: ms => elementsOf key ms

/-! ## Texts -/

/-- The node is written somewhere in the text. -/
def NodeIn (ts : List Tok) (x : DocNode) : Prop := ∃ a v b, ts = a ++ text v ++ b ∧ OrNull {} NodeRead v x

/-- The edge is written somewhere in the text, or it is in a node that is. -/
def EdgeIn (ts : List Tok) (e : FullEdge) : Prop :=
  (∃ a v b, ts = a ++ text v ++ b ∧ OrNull {} EdgeRead v e) ∨ ∃ x, NodeIn ts x ∧ e ∈ embedded [x]

/-- The text comes to a key other than `nodes` and `edges` that is not followed by a colon and a value with exactly one
key or value without parts in it. -/
def OddKey (ts : List Tok) : Prop :=
  ∃ ms k r, Shape ms ∧ ts = .lbrace :: (textMembers ms ++ (if ms.isEmpty then [] else [.comma]) ++ .str k :: r) ∧
    k ≠ "nodes" ∧ k ≠ "edges" ∧ ∀ v r', Skips v → r ≠ .colon :: (text v ++ r')

end LPG.Json
