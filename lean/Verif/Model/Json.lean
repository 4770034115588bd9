import Verif.Model.Queries
import Verif.Spec.Json
/-!
# JSON encoding and decoding (json.go)

The text is a list of tokens (`Verif.Spec.Json`). What `encoding/json` does with it is part of the model, because the
code depends on it: `json.Marshal` of the structures of json.go, the token stream of `json.Decoder` with its states, and
`Decoder.Decode` into these structures.

Simplifications: `int` is unbounded. Strings are texts (invalid UTF-8 cannot be written). An interner returns the string
that it is given. The writer does not fail here; `Verif.Model.EncodeTo` has writers that do.
-/
namespace LPG
namespace Json

/-- The functions in the fields of `JSON` (json.go:118-136) and the parts of `encoding/json` that work on property values.
`marshal` is `json.Marshal` (`null` if it fails: then the code stores a nil `RawMessage`), `unmarshal` is `json.Unmarshal`
into an `interface{}`. In the results of the other two, `none` is an error. A `PropertyMarshaler` that returns a text which is
not JSON is one that returns an error: json.go:222 and 298 fail on it. -/
structure Codec where
  separately : Bool
  marshal : Value → JVal
  unmarshal : JVal → Value
  marshaler : Option (String → Value → Option (String × JVal))
  unmarshaler : Option (String → JVal → Option (String × Value))

/-! ## Encode -/

/-- What was written, and whether there was no error. -/
abbrev Out := List Tok × Bool

/-- Go on unless there was an error. -/
def Out.andThen (a b : Out) : Out := if a.2 then (a.1 ++ b.1, b.2) else a

def emit (ts : List Tok) : Out := (ts, true)

/-- json.go:179-196, `marshalProperties`. `none`: error. -/
def marshalProperties (c : Codec) : Props → AMap String JVal → Option (AMap String JVal)
  | [], ret => some ret
  | (k, v) :: ps, ret =>
    match c.marshaler with
    | none => marshalProperties c ps (ret.set k (c.marshal v))
    | some f =>
      match f k v with
      | none => none
      | some (k', d) => if k' ≠ "" then marshalProperties c ps (ret.set k' d) else marshalProperties c ps ret

/-- json.go:198-222: the value that `encodeEdge` builds, as `json.Marshal` sees it (json.go:146-160 with `omitempty`).
A node that is not in the map has number 0. -/
def edgeValue (c : Codec) (s : State) (nodeMap : AMap Nat Nat) (writeFrom : Bool) (e : Nat) : Option JVal :=
  match marshalProperties c (s.eProps e) [] with
  | none => none
  | some ps => some (.obj (
      (if writeFrom then [("from", .num ((nodeMap.get (s.eFrom e)).getD 0))] else []) ++
      [("to", .num ((nodeMap.get (s.eTo e)).getD 0))] ++
      (if s.eLabel e ≠ "" then [("label", .str (s.eLabel e))] else []) ++
      (if ps.length > 0 then [("properties", .obj ps)] else [])))

/-- json.go:198-230, `encodeEdge`. -/
def encodeEdge (c : Codec) (s : State) (nodeMap : AMap Nat Nat) (writeFrom : Bool) (e : Nat) : Out :=
  match edgeValue c s nodeMap writeFrom e with
  | none => ([], false)
  | some v => emit (text v)

/-- json.go:232-238: number the nodes. -/
def number (i : Nat) : List Nat → AMap Nat Nat → AMap Nat Nat
  | [], m => m
  | n :: ns, m => number (i + 1) ns (m.set n i)

/-- json.go:314-340: the edges of a node. `first`: nothing has been written. -/
def writeOutgoing (c : Codec) (s : State) (nodeMap : AMap Nat Nat) (first : Bool) : List Nat → Out
  | [] => if first then emit [] else emit [.rbrack]
  | e :: es =>
    Out.andThen (if first then emit [.comma, .str "edges", .colon, .lbrack] else emit [.comma])
      (Out.andThen (encodeEdge c s nodeMap false e) (writeOutgoing c s nodeMap false es))

/-- json.go:261-344: one node; `es` are its outgoing edges. -/
def writeNode (c : Codec) (s : State) (nodeMap : AMap Nat Nat) (n ix : Nat) (es : List Nat) : Out :=
  Out.andThen (emit [.lbrace, .str "n", .colon, .num ix])
    (Out.andThen
      (if (s.nLabels n).length > 0 then emit (.comma :: .str "labels" :: .colon :: text (.arr ((s.nLabels n).map .str)))
        else emit [])
      (Out.andThen
        (if (s.nProps n).length > 0 then
          Out.andThen (emit [.comma, .str "properties", .colon])
            (match marshalProperties c (s.nProps n) [] with
            | none => ([], false)
            | some m => emit (text (.obj m)))
          else emit [])
        (if c.separately then emit [.rbrace]
          else Out.andThen (writeOutgoing c s nodeMap true es) (emit [.rbrace]))))

/-- json.go:251-345: the nodes, in the order in which the runtime goes through the map. -/
def writeNodes (c : Codec) (s : State) (nodeMap : AMap Nat Nat) (first : Bool) : AMap Nat Nat → Option Out
  | [] => some (emit [])
  | (n, ix) :: rest =>
    match s.nodeEdges n .outgoing, writeNodes c s nodeMap false rest with
    | some es, some o =>
      some (Out.andThen (if first then emit [] else emit [.comma]) (Out.andThen (writeNode c s nodeMap n ix es) o))
    | _, _ => none

/-- json.go:362-375: the edges, if they are written separately. -/
def writeEdges (c : Codec) (s : State) (nodeMap : AMap Nat Nat) (first : Bool) : List Nat → Out
  | [] => emit []
  | e :: es =>
    Out.andThen (if first then emit [] else emit [.comma])
      (Out.andThen (encodeEdge c s nodeMap true e) (writeEdges c s nodeMap false es))

/-- json.go:176-386, `Encode`. `order` is the order in which the runtime goes through the map of the nodes. `none`: an
iteration does not end. -/
def encode (c : Codec) (order : AMap Nat Nat → AMap Nat Nat) (s : State) : Option Out :=
  match s.getNodes with
  | none => none
  | some ns =>
    let nodeMap := number 0 ns []
    match writeNodes c s nodeMap true (order nodeMap), (if c.separately then s.getEdges else some []) with
    | some o, some es =>
      some (Out.andThen (emit [.lbrace])
        (Out.andThen
          (if nodeMap.length > 0 then
            Out.andThen (emit [.str "nodes", .colon, .lbrack]) (Out.andThen o (emit [.rbrack]))
            else emit [])
          (Out.andThen
            (if c.separately then
              Out.andThen (emit [.comma, .str "edges", .colon, .lbrack])
                (Out.andThen (writeEdges c s nodeMap true es) (emit [.rbrack]))
              else emit [])
            (emit [.rbrace]))))
    | _, _ => none

/-! ## The decoder of `encoding/json` -/

mutual
/-- Reading one value. The first argument bounds the depth of the recursion. -/
def readValue : Nat → List Tok → Option (JVal × List Tok)
  | 0, _ => none
  | _ + 1, .null :: r => some (.null, r)
  | _ + 1, .bool b :: r => some (.bool b, r)
  | _ + 1, .num i :: r => some (.num i, r)
  | _ + 1, .real l :: r => some (.real l, r)
  | _ + 1, .str s :: r => some (.str s, r)
  | f + 1, .lbrack :: r =>
    match r with
    | .rbrack :: r => some (.arr [], r)
    | r =>
      match readElems f r with
      | some (vs, .rbrack :: r) => some (.arr vs, r)
      | _ => none
  | f + 1, .lbrace :: r =>
    match r with
    | .rbrace :: r => some (.obj [], r)
    | r =>
      match readMembers f r with
      | some (ms, .rbrace :: r) => some (.obj ms, r)
      | _ => none
  | _ + 1, _ => none

/-- The elements of an array. -/
def readElems : Nat → List Tok → Option (List JVal × List Tok)
  | 0, _ => none
  | f + 1, r =>
    match readValue f r with
    | some (v, .comma :: r) =>
      match readElems f r with
      | some (vs, r) => some (v :: vs, r)
      | none => none
    | some (v, r) => some ([v], r)
    | none => none

/-- The members of an object. -/
def readMembers : Nat → List Tok → Option (List (String × JVal) × List Tok)
  | 0, _ => none
  | f + 1, .str k :: .colon :: r =>
    match readValue f r with
    | some (v, .comma :: r) =>
      match readMembers f r with
      | some (ms, r) => some ((k, v) :: ms, r)
      | none => none
    | some (v, r) => some ([(k, v)], r)
    | none => none
  | _ + 1, _ => none
end

/-- The states of `json.Decoder` (encoding/json stream.go). -/
inductive TState where
  | topValue | arrayStart | arrayValue | arrayComma | objectStart | objectKey | objectColon | objectValue | objectComma
deriving DecidableEq, Repr

def TState.valueAllowed : TState → Bool
  | .topValue | .arrayStart | .arrayValue | .objectValue => true
  | _ => false

def TState.valueEnd : TState → TState
  | .arrayStart | .arrayValue => .arrayComma
  | .objectValue => .objectComma
  | t => t

/-- `json.Decoder`: what is left of the input, the state and the stack of states. -/
structure Decoder where
  toks : List Tok
  state : TState := .topValue
  stack : List TState := []

/-- What `Token` returns: a delimiter, a string, or another scalar. -/
inductive GoTok where
  | lbrace | rbrace | lbrack | rbrack
  | str (s : String)
  | scalar
deriving DecidableEq, Repr

/-- `Decoder.Token`. `none`: error. -/
def token (st : TState) (stack : List TState) : List Tok → Option (GoTok × Decoder)
  | [] => none
  | .colon :: r => if st = .objectColon then token .objectValue stack r else none
  | .comma :: r =>
    if st = .arrayComma then token .arrayValue stack r
    else if st = .objectComma then token .objectKey stack r
    else none
  | .lbrack :: r => if st.valueAllowed then some (.lbrack, ⟨r, .arrayStart, st :: stack⟩) else none
  | .rbrack :: r =>
    if st = .arrayStart ∨ st = .arrayComma then
      match stack with
      | t :: stack => some (.rbrack, ⟨r, t.valueEnd, stack⟩)
      | [] => none
    else none
  | .lbrace :: r => if st.valueAllowed then some (.lbrace, ⟨r, .objectStart, st :: stack⟩) else none
  | .rbrace :: r =>
    if st = .objectStart ∨ st = .objectComma then
      match stack with
      | t :: stack => some (.rbrace, ⟨r, t.valueEnd, stack⟩)
      | [] => none
    else none
  | .str s :: r =>
    if st = .objectStart ∨ st = .objectKey then some (.str s, ⟨r, .objectColon, stack⟩)
    else if st.valueAllowed then some (.str s, ⟨r, st.valueEnd, stack⟩)
    else none
  | _ :: r => if st.valueAllowed then some (.scalar, ⟨r, st.valueEnd, stack⟩) else none

def Decoder.token (d : Decoder) : Option (GoTok × Decoder) := Json.token d.state d.stack d.toks

/-- `Decoder.Decode`, as far as the text: `tokenPrepareForDecode`, then one value. `none`: error. -/
def Decoder.value (d : Decoder) : Option (JVal × Decoder) :=
  let read (st : TState) (ts : List Tok) : Option (JVal × Decoder) :=
    if st.valueAllowed then
      match readValue (2 * ts.length) ts with
      | some (v, r) => some (v, ⟨r, st.valueEnd, d.stack⟩)
      | none => none
    else none
  match d.state, d.toks with
  | .arrayComma, .comma :: r => read .arrayValue r
  | .arrayComma, _ => none
  | .objectColon, .colon :: r => read .objectValue r
  | .objectColon, _ => none
  | st, ts => read st ts

/-! ## Decoding into the structures of json.go -/

/-- json.go:155-160, `jsonOutgoingEdge`. -/
structure OutEdge where
  to : Int := 0
  label : String := ""
  properties : AMap String JVal := []

/-- json.go:146-153, `jsonEdge`. -/
structure FullEdge where
  «from» : Int := 0
  to : Int := 0
  label : String := ""
  properties : AMap String JVal := []

/-- json.go:138-144, `jsonNode`. -/
structure DocNode where
  n : Int := 0
  labels : List String := []
  properties : AMap String JVal := []
  edges : List OutEdge := []

/-- `encoding/json` ignores the case of the names of fields (and knows two letters outside ASCII). -/
def foldChar (c : Char) : Char := if c = 'ſ' then 's' else if c = '\u212a' then 'k' else c.toLower

def fieldIs (field key : String) : Bool := key.toList.map foldChar = field.toList

/-- Into an `int`. -/
def toInt (old : Int) : JVal → Option Int
  | .null => some old
  | .num i => some i
  | _ => none

/-- Into a `string`. -/
def toStr (old : String) : JVal → Option String
  | .null => some old
  | .str s => some s
  | _ => none

/-- All elements of an array. -/
def toAll {α : Type} (f : JVal → Option α) : List JVal → Option (List α)
  | [] => some []
  | v :: vs =>
    match f v, toAll f vs with
    | some x, some xs => some (x :: xs)
    | _, _ => none

/-- Into a slice that is nil. -/
def toSlice {α : Type} (f : JVal → Option α) : JVal → Option (List α)
  | .null => some []
  | .arr vs => toAll f vs
  | _ => none

/-- Into a `map[string]json.RawMessage`. -/
def toRawMap (old : AMap String JVal) : JVal → Option (AMap String JVal)
  | .null => some []
  | .obj ms => some (ms.foldl (fun m p => m.set p.1 p.2) old)
  | _ => none

/-- Into a `jsonOutgoingEdge`: the members of the object. -/
def toOutEdgeFields : OutEdge → List (String × JVal) → Option OutEdge
  | x, [] => some x
  | x, (k, v) :: ms =>
    if fieldIs "to" k then
      match toInt x.to v with
      | some i => toOutEdgeFields { x with to := i } ms
      | none => none
    else if fieldIs "label" k then
      match toStr x.label v with
      | some l => toOutEdgeFields { x with label := l } ms
      | none => none
    else if fieldIs "properties" k then
      match toRawMap x.properties v with
      | some p => toOutEdgeFields { x with properties := p } ms
      | none => none
    else toOutEdgeFields x ms

def toOutEdgeInto (old : OutEdge) : JVal → Option OutEdge
  | .null => some old
  | .obj ms => toOutEdgeFields old ms
  | _ => none

/-- Into the elements of a slice that need not be nil, `old` being what its memory holds: the elements and the memory after
them. -/
def toElems {α : Type} (zero : α) (f : α → JVal → Option α) : List α → List JVal → Option (List α × List α)
  | old, [] => some ([], old)
  | old, v :: vs =>
    match f (old.headD zero) v, toElems zero f old.tail vs with
    | some x, some (xs, r) => some (x :: xs, r)
    | _, _ => none

/-- Into a slice that need not be nil (encoding/json decode.go, `array`): elements are read into those that are there, also into
those after the end of the slice that its memory still holds. An empty array makes a new slice. -/
def toSliceInto {α : Type} (zero : α) (f : α → JVal → Option α) (old : List α × List α) : JVal → Option (List α × List α)
  | .null => some ([], [])
  | .arr [] => some ([], [])
  | .arr (v :: vs) => toElems zero f (old.1 ++ old.2) (v :: vs)
  | _ => none

/-- Into a `jsonEdge`. -/
def toFullEdgeFields : FullEdge → List (String × JVal) → Option FullEdge
  | x, [] => some x
  | x, (k, v) :: ms =>
    if fieldIs "from" k then
      match toInt x.from v with
      | some i => toFullEdgeFields { x with «from» := i } ms
      | none => none
    else if fieldIs "to" k then
      match toInt x.to v with
      | some i => toFullEdgeFields { x with to := i } ms
      | none => none
    else if fieldIs "label" k then
      match toStr x.label v with
      | some l => toFullEdgeFields { x with label := l } ms
      | none => none
    else if fieldIs "properties" k then
      match toRawMap x.properties v with
      | some p => toFullEdgeFields { x with properties := p } ms
      | none => none
    else toFullEdgeFields x ms

def toFullEdge : JVal → Option FullEdge
  | .null => some {}
  | .obj ms => toFullEdgeFields {} ms
  | _ => none

/-- A `jsonNode` that is being read, with what the memory of its slices holds after their ends. -/
structure NodeVar where
  node : DocNode := {}
  labelsRest : List String := []
  edgesRest : List OutEdge := []

/-- Into a `jsonNode`. -/
def toNodeFields : NodeVar → List (String × JVal) → Option NodeVar
  | x, [] => some x
  | x, (k, v) :: ms =>
    if fieldIs "n" k then
      match toInt x.node.n v with
      | some i => toNodeFields { x with node := { x.node with n := i } } ms
      | none => none
    else if fieldIs "labels" k then
      match toSliceInto "" toStr (x.node.labels, x.labelsRest) v with
      | some l => toNodeFields { x with node := { x.node with labels := l.1 }, labelsRest := l.2 } ms
      | none => none
    else if fieldIs "properties" k then
      match toRawMap x.node.properties v with
      | some p => toNodeFields { x with node := { x.node with properties := p } } ms
      | none => none
    else if fieldIs "edges" k then
      match toSliceInto {} toOutEdgeInto (x.node.edges, x.edgesRest) v with
      | some es => toNodeFields { x with node := { x.node with edges := es.1 }, edgesRest := es.2 } ms
      | none => none
    else toNodeFields x ms

def toNode : JVal → Option DocNode
  | .null => some {}
  | .obj ms => (toNodeFields {} ms).map NodeVar.node
  | _ => none

/-! ## Decode -/

inductive Err where
  /-- an error of `encoding/json`: syntax, end of the input, or a value of the wrong type -/
  | input
  /-- an error of the property unmarshaler -/
  | property
  /-- `ErrInvalidGraph` -/
  | invalidFrom (i : Int)
  | invalidTo (i : Int)
  /-- not a result: the bound on the number of rounds of the loop was too small -/
  | stuck
deriving DecidableEq, Repr

/-- json.go:388-397, `unmarshalProperty`. -/
def unmarshalProperty (c : Codec) (k : String) (j : JVal) : Option (String × Value) :=
  match c.unmarshaler with
  | none => some (k, c.unmarshal j)
  | some f => f k j

/-- json.go:399-415, `unmarshalProperties`. `none`: error. -/
def unmarshalProperties (c : Codec) : AMap String JVal → Props → Option Props
  | [], ret => some ret
  | (k, j) :: ps, ret =>
    match unmarshalProperty c k j with
    | none => none
    | some (k', v) => if k' ≠ "" then unmarshalProperties c ps (ret.set k' v) else unmarshalProperties c ps ret

/-- The variables of `Decode`: the graph, the map from numbers to nodes, and the queue. -/
structure Load where
  s : State
  nodeMap : AMap Int Nat := []
  queue : List FullEdge := []

/-- The outcome of a part of `Decode`: an error or nothing, and the variables. `none`: panic. -/
abbrev Outcome := Option (Option Err × Load)

/-- json.go:445-452, `addEdge`. -/
def addEdge (c : Codec) (l : Load) (a b : Nat) (label : String) (ps : AMap String JVal) : Outcome :=
  match unmarshalProperties c ps [] with
  | none => some (some .property, l)
  | some p =>
    match step l.s (.newEdge a b label p) with
    | none => none
    | some s => some (none, { l with s := s })

/-- json.go:427-442: the edges of a node. -/
def addOutgoing (c : Codec) (n : Int) (newNode : Nat) : List OutEdge → Load → Outcome
  | [], l => some (none, l)
  | e :: es, l =>
    match l.nodeMap.get e.to with
    | none =>
      addOutgoing c n newNode es
        { l with queue := l.queue ++ [{ «from» := n, to := e.to, label := e.label, properties := e.properties }] }
    | some to =>
      match addEdge c l newNode to e.label e.properties with
      | some (none, l) => addOutgoing c n newNode es l
      | r => r

/-- json.go:417-443, `addNode`. -/
def addNode (c : Codec) (l : Load) (node : DocNode) : Outcome :=
  match unmarshalProperties c node.properties [] with
  | none => some (some .property, l)
  | some p =>
    match step l.s (.newNode node.labels p) with
    | none => none
    | some s => addOutgoing c node.n l.s.idBase node.edges { l with s := s, nodeMap := l.nodeMap.set node.n l.s.idBase }

/-- json.go:481-485. -/
def addNodes (c : Codec) : List DocNode → Load → Outcome
  | [], l => some (none, l)
  | n :: ns, l =>
    match addNode c l n with
    | some (none, l) => addNodes c ns l
    | r => r

/-- json.go:491-501. -/
def addEdges (c : Codec) : List FullEdge → Load → Outcome
  | [], l => some (none, l)
  | e :: es, l =>
    match l.nodeMap.get e.from, l.nodeMap.get e.to with
    | some a, some b =>
      match addEdge c l a b e.label e.properties with
      | some (none, l) => addEdges c es l
      | r => r
    | _, _ => addEdges c es { l with queue := l.queue ++ [e] }

/-- json.go:506-519: the queue, at the end. -/
def addQueue (c : Codec) : List FullEdge → Load → Outcome
  | [], l => some (none, l)
  | e :: es, l =>
    match l.nodeMap.get e.from with
    | none => some (some (.invalidFrom e.from), l)
    | some a =>
      match l.nodeMap.get e.to with
      | none => some (some (.invalidTo e.to), l)
      | some b =>
        match addEdge c l a b e.label e.properties with
        | some (none, l) => addQueue c es l
        | r => r

/-- json.go:466-531: the loop. The first argument bounds the number of rounds. -/
def decodeLoop (c : Codec) : Nat → Nat → Decoder → Load → Outcome
  | 0, _, _, l => some (some .stuck, l)
  | f + 1, depth, d, l =>
    match d.token with
    | none => some (some .input, l)
    | some (tok, d) =>
      if depth = 0 then
        match tok with
        | .str k =>
          if k = "nodes" then
            match d.value with
            | none => some (some .input, l)
            | some (v, d) =>
              match toSlice toNode v with
              | none => some (some .input, l)
              | some ns =>
                match addNodes c ns l with
                | some (none, l) => decodeLoop c f 0 d l
                | r => r
          else if k = "edges" then
            match d.value with
            | none => some (some .input, l)
            | some (v, d) =>
              match toSlice toFullEdge v with
              | none => some (some .input, l)
              | some es =>
                match addEdges c es l with
                | some (none, l) => decodeLoop c f 0 d l
                | r => r
          else decodeLoop c f 1 d l
        | .rbrace => addQueue c l.queue l
        | _ => decodeLoop c f 0 d l
      else
        match tok with
        | .lbrace | .lbrack => decodeLoop c f (depth + 1) d l
        | _ => decodeLoop c f (depth - 1) d l

/-- json.go:454-532, `Decode`: the error and the graph afterwards. -/
def decode (c : Codec) (s : State) (ts : List Tok) : Option (Option Err × State) :=
  match ({ toks := ts } : Decoder).token with
  | none => some (some .input, s)
  | some (.lbrace, d) => (decodeLoop c (ts.length + 1) 0 d { s := s }).map (fun r => (r.1, r.2.s))
  | some _ => some (some .input, s)

end Json
end LPG
