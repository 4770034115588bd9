import Verif.Model.Json
import Verif.Model.RecoverNil
/-!
# Panics of `Decode` (json.go:417-532)

`Verif.Model.Json` has `none` for a panic of `Decode`. Here `Decode` leaves behind what it has done so far, and the program may
recover and go on. The functions are those of `Verif.Model.Json`, with `NewNode` and `NewEdge` under `recover`.
-/
namespace LPG
namespace Json

/-- Why `Decode` ended early. -/
inductive Stop where
  | error (e : Err)
  | panic
deriving DecidableEq, Repr

/-- The outcome of a part of `Decode`: why it stops, or that it goes on, and the variables. `none`: no return. -/
abbrev TryOutcome := Option (Option Stop × Load)

/-- A call that creates something. -/
def tryCall (o : MapOrder) (l : Load) (op : Op) : TryOutcome :=
  match recoverStep o l.s op with
  | none => none
  | some (s, b) => some (if b then some .panic else none, { l with s := s })

/-- json.go:445-452, `addEdge`. -/
def tryAddEdge (o : MapOrder) (c : Codec) (l : Load) (a b : Nat) (label : String) (ps : AMap String JVal) : TryOutcome :=
  match unmarshalProperties c ps [] with
  | none => some (some (.error .property), l)
  | some p => tryCall o l (.newEdge a b label p)

/-- json.go:427-442: the edges of a node. -/
def tryAddOutgoing (o : MapOrder) (c : Codec) (n : Int) (newNode : Nat) : List OutEdge → Load → TryOutcome
  | [], l => some (none, l)
  | e :: es, l =>
    match l.nodeMap.get e.to with
    | none =>
      tryAddOutgoing o c n newNode es
        { l with queue := l.queue ++ [{ «from» := n, to := e.to, label := e.label, properties := e.properties }] }
    | some to =>
      match tryAddEdge o c l newNode to e.label e.properties with
      | some (none, l) => tryAddOutgoing o c n newNode es l
      | r => r

/-- json.go:417-443, `addNode`. -/
def tryAddNode (o : MapOrder) (c : Codec) (l : Load) (node : DocNode) : TryOutcome :=
  match unmarshalProperties c node.properties [] with
  | none => some (some (.error .property), l)
  | some p =>
    match tryCall o l (.newNode node.labels p) with
    | some (none, l') => tryAddOutgoing o c node.n l.s.idBase node.edges { l' with nodeMap := l.nodeMap.set node.n l.s.idBase }
    | r => r

/-- json.go:481-485. -/
def tryAddNodes (o : MapOrder) (c : Codec) : List DocNode → Load → TryOutcome
  | [], l => some (none, l)
  | n :: ns, l =>
    match tryAddNode o c l n with
    | some (none, l) => tryAddNodes o c ns l
    | r => r

/-- json.go:491-501. -/
def tryAddEdges (o : MapOrder) (c : Codec) : List FullEdge → Load → TryOutcome
  | [], l => some (none, l)
  | e :: es, l =>
    match l.nodeMap.get e.from, l.nodeMap.get e.to with
    | some a, some b =>
      match tryAddEdge o c l a b e.label e.properties with
      | some (none, l) => tryAddEdges o c es l
      | r => r
    | _, _ => tryAddEdges o c es { l with queue := l.queue ++ [e] }

/-- json.go:506-519: the queue, at the end. -/
def tryAddQueue (o : MapOrder) (c : Codec) : List FullEdge → Load → TryOutcome
  | [], l => some (none, l)
  | e :: es, l =>
    match l.nodeMap.get e.from with
    | none => some (some (.error (.invalidFrom e.from)), l)
    | some a =>
      match l.nodeMap.get e.to with
      | none => some (some (.error (.invalidTo e.to)), l)
      | some b =>
        match tryAddEdge o c l a b e.label e.properties with
        | some (none, l) => tryAddQueue o c es l
        | r => r

/-- json.go:466-531: the loop. The first number bounds the number of rounds. -/
def tryDecodeLoop (o : MapOrder) (c : Codec) : Nat → Nat → Decoder → Load → TryOutcome
  | 0, _, _, l => some (some (.error .stuck), l)
  | f + 1, depth, d, l =>
    match d.token with
    | none => some (some (.error .input), l)
    | some (tok, d) =>
      if depth = 0 then
        match tok with
        | .str k =>
          if k = "nodes" then
            match d.value with
            | none => some (some (.error .input), l)
            | some (v, d) =>
              match toSlice toNode v with
              | none => some (some (.error .input), l)
              | some ns =>
                match tryAddNodes o c ns l with
                | some (none, l) => tryDecodeLoop o c f 0 d l
                | r => r
          else if k = "edges" then
            match d.value with
            | none => some (some (.error .input), l)
            | some (v, d) =>
              match toSlice toFullEdge v with
              | none => some (some (.error .input), l)
              | some es =>
                match tryAddEdges o c es l with
                | some (none, l) => tryDecodeLoop o c f 0 d l
                | r => r
          else tryDecodeLoop o c f 1 d l
        | .rbrace => tryAddQueue o c l.queue l
        | _ => tryDecodeLoop o c f 0 d l
      else
        match tok with
        | .lbrace | .lbrack => tryDecodeLoop o c f (depth + 1) d l
        | _ => tryDecodeLoop o c f (depth - 1) d l

/-- json.go:454-532, `Decode`: why it ended early, and the graph afterwards. -/
def tryDecode (o : MapOrder) (c : Codec) (s : State) (ts : List Tok) : Option (Option Stop × State) :=
  match ({ toks := ts } : Decoder).token with
  | none => some (some (.error .input), s)
  | some (.lbrace, d) => (tryDecodeLoop o c (ts.length + 1) 0 d { s := s }).map (fun r => (r.1, r.2.s))
  | some _ => some (some (.error .input), s)

end Json
end LPG
