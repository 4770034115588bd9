import Verif.Proofs.JsonRound
import Verif.Props.C01C04
/-!
# C39 JSON round trip, C40 JSON encoding is well-formed, C41 JSON decoding

`text v` is the text of a JSON value as tokens (`Verif.Spec.Json`). `Document ms N E` says that the members `ms` of an
object give the nodes `N` and the separate edges `E`, `Loaded` what it means that they are in a graph, `Inverse` that the
functions for properties are inverse to each other (`Verif.Spec.JsonGraph`). `CopyOf` is in `Verif.Spec.Clone`.
-/
namespace LPG
open Json

/-! ## C40 -/

/-- The full property C40 for one graph. -/
def C40_statement (c : Codec) (order : AMap Nat Nat → AMap Nat Nat) (s : State) : Prop :=
  ∀ ts, encode c order s = some (ts, true) → WellFormed ts

theorem number_nil {ns : List Nat} (h : number 0 ns [] = []) : ns = [] := by
  cases ns with
  | nil => rfl
  | cons n ns =>
    exfalso
    have : ∀ (ns : List Nat) (i : Nat) (m : AMap Nat Nat), m ≠ [] → number i ns m ≠ [] := by
      intro ns
      induction ns with
      | nil => intro i m hm; exact hm
      | cons a ns ih =>
        intro i m hm
        rw [number]
        refine ih _ _ ?_
        intro h
        have := AMap.get_set_same m a i
        rw [h] at this
        simp at this
    rw [number] at h
    exact this _ _ _ (by simp [AMap.set]) h

/-- C40 holds for every state of a graph and every order of the nodes, unless the edges are written separately and the
graph has no nodes. Missing: that case, for which the property is false (`C40_false`). -/
theorem C40_partial (c : Codec) (order : AMap Nat Nat → AMap Nat Nat) (s : State)
    (h : c.separately = true → s.getNodes ≠ some []) : C40_statement c order s := by
  intro ts hts
  obtain ⟨ns, es, h1, h2, h3⟩ := encode_ok hts
  rcases h3 with ⟨h3, h4, _⟩ | ⟨_, _, h5⟩ | ⟨_, ms, N, E, h5, _⟩
  · exact absurd (by rw [h1, number_nil h3]) (h h4)
  · exact ⟨_, h5⟩
  · exact ⟨_, h5⟩

/-- a graph, and functions that write a property as it is -/
def plain (sep : Bool) : Codec where
  separately := sep
  marshal := fun v => match v with | .str s => .str s | .int i => .num i | _ => .null
  unmarshal := fun j => match j with | .str s => .str s | .num i => .int i | _ => .nil
  marshaler := none
  unmarshaler := none

/-- all branches are taken: several nodes and edges, with and without labels and properties -/
example : ((run demoOps).bind (encode (plain false) List.reverse)).map (fun o => (o.1.length, o.2)) = some (63, true) ∧
    ((run demoOps).bind (encode (plain true) List.reverse)).map (fun o => (o.1.length, o.2)) = some (71, true) := by
  decide +kernel

theorem not_text {r : List Tok} : ¬ WellFormed (.lbrace :: .comma :: r) := by
  rintro ⟨v, hv⟩
  cases v with
  | obj ms =>
    cases ms with
    | nil => simp [text, textMembers] at hv
    | cons p ms => obtain ⟨k, v⟩ := p; simp [text, textMembers] at hv
  | _ => simp [text] at hv

/-- C40 fails for each new graph, if the edges are written separately. -/
theorem C40_false (c : Codec) (hc : c.separately = true) (order : AMap Nat Nat → AMap Nat Nat) (ho : order [] = []) :
    ¬ C40_statement c order State.new := by
  intro h
  have : encode c order State.new = some ([.lbrace, .comma, .str "edges", .colon, .lbrack, .rbrack, .rbrace], true) := by
    have h1 : State.new.getNodes = some [] := by decide
    have h2 : State.new.getEdges = some [] := by decide
    simp [encode, h1, h2, number, ho, writeNodes, hc, writeEdges, emit, Out.andThen]
  exact not_text (h _ this)

/-! ## C41 -/

/-- What `Decode` does with a document in which it counts right through the values of unknown keys: it reports no error exactly if
all properties can be unmarshaled and all edges refer to nodes of the document, and then the graph has all nodes and edges
of the document; otherwise it says what is wrong, and the graph has the first nodes of the document and some of its edges.
The graph may have had content before; `rest` is more input. `GetNodes` then enumerates what it does after the same number
of calls of `NewNode`, also in graphs in which new nodes are lost (C01); the enumeration and the number of all edges are
right unless the graph was spoiled by relabeling (C04). Missing: other values of unknown keys, for which the property is
false (`C41_false`). -/
theorem C41_partial {ops : List Op} (hv : Spec.ValidHistory ops) {s : State} (hs : run ops = some s) {c : Codec} {ms : List (String × JVal)}
    {N : List DocNode} {E : List FullEdge} (hd : Document ms N E) {rest : List Tok} {err : Option Err} {s' : State}
    (h : decode c s (text (.obj ms) ++ rest) = some (err, s')) :
    (err = none ↔ PropsFine c.unm N (embedded N ++ E) ∧ RefsFine N (embedded N ++ E)) ∧
    (∀ x, err = some x → Wrong c.unm N (embedded N ++ E) x) ∧
    ∃ P Q σ', Holds s' σ' ∧ Loaded c.unm (Spec.run ops) σ' P Q ∧
      s'.getNodes = some ((P.map Prod.snd).foldl Listing.create (listingAfter ops)).nodes ∧
      (ListOk (ops ++ [.newNode [] []]) → FiledOk ops → Shows s' σ') ∧
      (err = none → P.map Prod.fst = N ∧ (Q.map Prod.fst).Perm (embedded N ++ E)) ∧
      P.map Prod.fst <+: N ∧ (Q.map Prod.fst).Subperm (embedded N ++ E) := by
  obtain ⟨R, hl⟩ := Loading.start (c := c) hv hs
  obtain ⟨P, Q, l, σ', rfl, k1, k2, k3, k4, k5⟩ := (decode_text hd hl).2 err s' h
  refine ⟨⟨fun he => ?_, fun ⟨h1, h2⟩ => ?_⟩, k3, P, Q, σ', k1.core.holds, k1.loaded, k1.getNodes hv hs, k1.shows, k2, k4, k5⟩
  · obtain ⟨p1, p2⟩ := k2 he
    have hq : ∀ e ∈ embedded N ++ E, ∃ q ∈ Q, q.1 = e := by
      intro e he
      obtain ⟨q, h1, h2⟩ := List.mem_map.1 (p2.mem_iff.2 he)
      exact ⟨q, h1, h2⟩
    have hp : ∀ p ∈ P, p.1 ∈ N := fun p hp => by rw [← p1]; exact List.mem_map_of_mem hp
    refine ⟨⟨fun n hn => ?_, fun e he => ?_⟩, fun e he => ?_⟩
    · rw [← p1] at hn
      obtain ⟨p, h1, rfl⟩ := List.mem_map.1 hn
      exact k1.fineN p h1
    · obtain ⟨q, h1, rfl⟩ := hq e he
      exact k1.fineE q h1
    · obtain ⟨q, h1, rfl⟩ := hq e he
      obtain ⟨p, h2, h3, _⟩ := k1.loaded.src q h1
      obtain ⟨p', h2', h3', _⟩ := k1.loaded.dst q h1
      exact ⟨⟨p.1, hp p h2, h3⟩, ⟨p'.1, hp p' h2', h3'⟩⟩
  · cases err with
    | none => rfl
    | some x =>
      exfalso
      rcases k3 x rfl with ⟨_, h3⟩ | ⟨e, he, _, h3⟩ | ⟨e, he, _, h3⟩
      · exact h3 h1
      · obtain ⟨⟨n, hn, h4⟩, _⟩ := h2 e he
        exact h3 n hn h4
      · obtain ⟨_, n, hn, h4⟩ := h2 e he
        exact h3 n hn h4

/-- `Decode` of such a document does not panic, if `GetEdges` does not, and the values of indexed properties suit the
index; in particular, if the graph has no property index. -/
theorem C41_returns {ops : List Op} (hv : Spec.ValidHistory ops) {s : State} (hs : run ops = some s) (he : s.getEdges ≠ none)
    {c : Codec} (hi : LoadIndexable c.unm ops)
    {ms : List (String × JVal)} {N : List DocNode} {E : List FullEdge} (hd : Document ms N E) (rest : List Tok) :
    decode c s (text (.obj ms) ++ rest) ≠ none := by
  obtain ⟨R, hl⟩ := Loading.start (c := c) hv hs
  exact (decode_text hd hl).1 ⟨hi, he⟩

/-- Whatever the input, the bound on the number of rounds in the model of `Decode` is never reached. -/
theorem decode_rounds (c : Codec) (s s' : State) (ts : List Tok) : decode c s ts ≠ some (some .stuck, s') := by
  unfold decode
  split
  · simp
  · rename_i d ht
    intro h
    obtain ⟨⟨err, l⟩, h1, h2⟩ := Option.map_eq_some_iff.1 h
    cases h2
    exact decodeLoop_notStuck c _ 0 d _ (by have := token_len ht; simp at this; omega) _ h1
  · simp

/-- a document with an unknown key, edges in a node (one refers to a later node) and separate edges -/
def sample : List (String × JVal) :=
  [("version", .num 2),
   ("nodes", .arr [
     .obj [("n", .num 5), ("labels", .arr [.str "A"]), ("edges", .arr [
       .obj [("to", .num 7), ("label", .str "e")], .obj [("to", .num 5)]])],
     .obj [("n", .num 7), ("properties", .obj [("x", .num 1)])]]),
   ("edges", .arr [.obj [("from", .num 7), ("to", .num 5), ("properties", .obj [("w", .str "q")])]])]

/-- the nodes and edges of `sample` -/
def sampleNodes : List DocNode :=
  [{ n := 5, labels := ["A"], edges := [{ «to» := 7, label := "e" }, { «to» := 5 }] },
   { n := 7, properties := [("x", .num 1)] }]
def sampleEdges : List FullEdge := [{ «from» := 7, «to» := 5, properties := [("w", .str "q")] }]

theorem sample_document : Document sample sampleNodes sampleEdges := by
  have h1 : toSlice toNode (sample[1].2) = some sampleNodes := by
    simp [sample, sampleNodes, toSlice, toAll, toNode, toNodeFields, toOutEdgeInto, toSliceInto, toElems, toOutEdgeFields, toInt, toStr, toRawMap,
      AMap.set, show fieldIs "n" "n" = true by decide, show fieldIs "n" "labels" = false by decide,
      show fieldIs "n" "edges" = false by decide, show fieldIs "n" "properties" = false by decide,
      show fieldIs "labels" "labels" = true by decide, show fieldIs "labels" "properties" = false by decide,
      show fieldIs "labels" "edges" = false by decide, show fieldIs "properties" "properties" = true by decide,
      show fieldIs "properties" "edges" = false by decide, show fieldIs "edges" "edges" = true by decide,
      show fieldIs "to" "to" = true by decide, show fieldIs "to" "label" = false by decide,
      show fieldIs "label" "label" = true by decide]
  have h2 : toSlice toFullEdge (sample[2].2) = some sampleEdges := by
    simp [sample, sampleEdges, toSlice, toAll, toFullEdge, toFullEdgeFields, toInt, toStr, toRawMap,
      AMap.set, show fieldIs "from" "from" = true by decide, show fieldIs "from" "to" = false by decide,
      show fieldIs "from" "properties" = false by decide, show fieldIs "to" "to" = true by decide,
      show fieldIs "to" "properties" = false by decide, show fieldIs "label" "properties" = false by decide,
      show fieldIs "properties" "properties" = true by decide]
  exact .other (by decide) (by decide) rfl (.nodes (N := []) h1 (.edges (E := []) h2 .nil))

/-- the last node is removed: later nodes are lost -/
def lostOps : List Op := [.newNode [] [], .newNode [] [], .detachRemove 1]

/-- what the loop says after `sample`: no error, and two nodes and three edges more -/
example : (((run demoOps).bind (fun s => decode (plain false) s (text (.obj sample)))).map
    (fun r => (r.1, r.2.numNodes, r.2.numEdges))) = some (none, 4, 5) ∧
    ((run demoOps).map (fun s => (s.numNodes, s.numEdges))) = some (2, 2) := by decide +kernel

/-- a dangling reference -/
example : ((decode (plain false) State.new (text (.obj [("nodes", .arr [.obj [("n", .num 0)]]),
    ("edges", .arr [.obj [("from", .num 0), ("to", .num 3)]])]))).map (fun r => r.1)) = some (some (.invalidTo 3)) := by
  decide +kernel

/-- A graph in which new nodes are lost: the two nodes of the document are in the graph, and are not enumerated. -/
example : Spec.ValidHistory lostOps ∧ ¬ ListOk (lostOps ++ [.newNode [] []]) ∧
    (((run lostOps).bind (fun s => decode (plain false) s (text (.obj sample)))).map
      (fun r => (r.1, r.2.numNodes, r.2.getNodes, r.2.numEdges))) = some (none, 3, some [0], 3) := by
  refine ⟨by decide, by decide, by decide +kernel⟩

/-- C41 fails: the document has a node, but because of the value of an unknown key `Decode` stops early, without an
error and without having added the node. -/
theorem C41_false :
    ((decode (plain false) State.new (text (.obj [("x", .obj [("a", .num 1)]), ("nodes", .arr [.obj [("n", .num 0)]])]))).map
      (fun r => (r.1, r.2.numNodes))) = some (none, 0) ∧
    ((decode (plain false) State.new (text (.obj [("x", .arr []), ("nodes", .arr [.obj [("n", .num 0)]])]))).map
      (fun r => (r.1, r.2.numNodes))) = some (none, 0) := by
  decide +kernel

/-! ## C39 -/

/-- The functions for properties are inverse to each other on all properties of the graph. -/
def InverseOn (c : Codec) (σ : Spec) : Prop :=
  (∀ n ∈ σ.nodes, Inverse c.mar c.unm (σ.nprop n)) ∧ (∀ e ∈ σ.edges, Inverse c.mar c.unm (σ.eprop e))

/-- C39 for one graph: `Encode` succeeds, `Decode` into a new graph succeeds, and the new graph is a copy of the graph.
`m` pairs the nodes with their copies. -/
def C39_statement (c : Codec) (order : AMap Nat Nat → AMap Nat Nat) (s : State) (σ : Spec) : Prop :=
  ∃ ts s', encode c order s = some (ts, true) ∧ decode c State.new ts = some (none, s') ∧
    ∃ σ' m es, Shows s' σ' ∧ CopyOf (fun _ v => v) σ Spec.new σ' m es ∧ (m.map Prod.fst).Perm σ.nodes ∧ es.Perm σ.edges

/-- What `Encode` writes of the graph in state `s` is `τ`. A node that is not enumerated is written as number 0. -/
structure Written (c : Codec) (s : State) (τ : Spec) : Prop where
  nodes : s.getNodes = some τ.nodes
  nNodup : τ.nodes.Nodup
  labels : ∀ n ∈ τ.nodes, ∀ l, l ∈ s.nLabels n ↔ l ∈ τ.labels n
  nprops : ∀ n ∈ τ.nodes, (AMap.keys (s.nProps n)).Nodup ∧ ∀ k, (s.nProps n).get k = τ.nprop n k
  eNodup : τ.edges.Nodup
  src : ∀ e ∈ τ.edges, num (τ.nodes.zipIdx 0) (s.eFrom e) = num (τ.nodes.zipIdx 0) (τ.src e)
  dst : ∀ e ∈ τ.edges, num (τ.nodes.zipIdx 0) (s.eTo e) = num (τ.nodes.zipIdx 0) (τ.dst e)
  label : ∀ e ∈ τ.edges, s.eLabel e = τ.label e
  eprops : ∀ e ∈ τ.edges, (AMap.keys (s.eProps e)).Nodup ∧ ∀ k, (s.eProps e).get k = τ.eprop e k
  ends : ∀ e ∈ τ.edges, τ.src e ∈ τ.nodes ∧ τ.dst e ∈ τ.nodes
  out : ∀ n ∈ τ.nodes, ∃ es, s.nodeEdges n .outgoing = some es ∧ (∀ e ∈ es, e ∈ τ.edges) ∧
    (c.separately = false → es.Perm (τ.edges.filter (fun e => τ.src e = n)))
  listed : c.separately = true → ∃ es, s.getEdges = some es ∧ es.Perm τ.edges

theorem Written.copy {c : Codec} {s : State} {σ : Spec} (k : Written c s σ)
    {order : AMap Nat Nat → AMap Nat Nat} (ho : ∀ m, (order m).Perm m) (hi : InverseOn c σ)
    (hne : c.separately = true → σ.nodes ≠ []) : C39_statement c order s σ := by
  have hgn := k.nodes
  obtain ⟨es0, hge, hes0, hesm⟩ : ∃ es0, (if c.separately then s.getEdges else some []) = some es0 ∧
      (c.separately = true → es0.Perm σ.edges) ∧ ∀ e ∈ es0, e ∈ σ.edges := by
    cases hsep : c.separately with
    | false => exact ⟨[], by simp, by simp, by simp⟩
    | true =>
      obtain ⟨es0, h1, h2⟩ := k.listed hsep
      exact ⟨es0, by simp [h1], fun _ => h2, fun e he => h2.mem_iff.1 he⟩
  have hnum : number 0 σ.nodes [] = σ.nodes.zipIdx 0 := by
    rw [number_eq k.nNodup (by simp)]; simp
  have hfst : (order (σ.nodes.zipIdx 0)).map Prod.fst |>.Perm σ.nodes := by
    have := (ho (σ.nodes.zipIdx 0)).map Prod.fst
    rwa [List.zipIdx_map_fst] at this
  have hin : ∀ p ∈ order (σ.nodes.zipIdx 0), p.1 ∈ σ.nodes := fun p hp => hfst.mem_iff.1 (List.mem_map_of_mem hp)
  have hix : ∀ p ∈ order (σ.nodes.zipIdx 0), num (σ.nodes.zipIdx 0) p.1 = p.2 := fun p hp =>
    zip_get k.nNodup p ((ho _).mem_iff.1 hp)
  have marN : ∀ n ∈ σ.nodes, ∀ k' v, (k', v) ∈ s.nProps n → c.mar k' v ≠ none := by
    intro n hn k' v hm
    have h1 := AMap.get_of_mem (k.nprops n hn).1 hm
    rw [(k.nprops n hn).2] at h1
    obtain ⟨_, k2, j, _, h2, _⟩ := (hi.1 n hn).back k' v h1
    rw [h2]; simp
  have marE : ∀ e ∈ σ.edges, ∀ k' v, (k', v) ∈ s.eProps e → c.mar k' v ≠ none := by
    intro n hn k' v hm
    have h1 := AMap.get_of_mem (k.eprops n hn).1 hm
    rw [(k.eprops n hn).2] at h1
    obtain ⟨_, k2, j, _, h2, _⟩ := (hi.2 n hn).back k' v h1
    rw [h2]; simp
  obtain ⟨ts, hts⟩ := encode_true (c := c) (order := order) hgn hge (by
    rw [hnum]
    intro p hp
    refine ⟨marN p.1 (hin p hp), ?_⟩
    obtain ⟨es, h1, h2, _⟩ := k.out p.1 (hin p hp)
    exact ⟨es, h1, fun e he => marE e (h2 e he)⟩) (fun e he => marE e (hesm e he))
  obtain ⟨ns, es, h1, h2, h3⟩ := encode_ok hts
  rw [hgn] at h1; cases h1
  rw [hge] at h2; cases h2
  -- the document
  have hdoc : ∃ ms N E L, ts = text (.obj ms) ∧ Document ms N E ∧
      List.Forall₂ (fun p d => NodeDoc c s (σ.nodes.zipIdx 0) p.1 p.2 d) (order (σ.nodes.zipIdx 0)) N ∧
      List.Forall₂ (EdgeDoc c s (σ.nodes.zipIdx 0)) L (embedded N ++ E) ∧ L.Perm σ.edges := by
    rcases h3 with ⟨h3, h4, _⟩ | ⟨h3, h4, h5⟩ | ⟨_, ms, N, E, h5, h6, h7, h8, h9⟩
    · exact absurd (number_nil h3) (hne h4)
    · have hn0 := number_nil h3
      have he0 : σ.edges = [] := by
        cases he : σ.edges with
        | nil => rfl
        | cons e t =>
          have := (k.ends e (by rw [he]; simp)).1
          rw [hn0] at this; cases this
      refine ⟨[], [], [], [], h5, .nil, ?_, .nil, by rw [he0]⟩
      have h0 := ho (σ.nodes.zipIdx 0)
      rw [hn0] at h0 ⊢
      rw [h0.eq_nil]
      exact .nil
    · rw [hnum] at h7 h8
      cases hsep : c.separately with
      | true =>
        refine ⟨ms, N, E, es0, h5, h6, h7, ?_, hes0 hsep⟩
        have : ∀ {a : List (Nat × Nat)} {b : List DocNode},
            List.Forall₂ (fun p d => NodeDoc c s (σ.nodes.zipIdx 0) p.1 p.2 d) a b → embedded b = [] := by
          intro a b h
          induction h with
          | nil => rfl
          | @cons a b as bs h t ih =>
            have e : embedded (b :: bs) = b.edges.map (full b.n) ++ embedded bs := by simp [embedded, full]
            rw [e, h.sep hsep, ih]; rfl
        rw [this h7]
        exact h8 hsep
      | false =>
        rw [h9 hsep] at h6
        obtain ⟨L, g1, g2, g3⟩ := outLists (fun n hn => by
          obtain ⟨es, h1, _, h2⟩ := k.out n hn; exact ⟨es, h1, h2 hsep⟩) k.src k.eNodup hsep h7 hin (hfst.nodup_iff.2 k.nNodup) hix
        refine ⟨ms, N, [], L, h5, h6, h7, by simpa using g1, perm_of_mem g2 k.eNodup (fun e => ?_)⟩
        rw [g3]
        exact ⟨fun h => h.1, fun h => ⟨h, hfst.mem_iff.2 (k.ends e h).1⟩⟩
  obtain ⟨ms, N, E, L, rfl, hd, hnd, hed, hL⟩ := hdoc
  have hnd' := forall2_mem_left hnd
  have hed' := forall2_mem_left hed
  have hret := C41_returns (ops := []) trivial rfl (by decide) (c := c)
    ⟨fun k t h => (by cases h), fun k t h => (by cases h)⟩ hd []
  rw [List.append_nil] at hret
  obtain ⟨⟨err, s'⟩, hdec⟩ := Option.ne_none_iff_exists'.1 hret
  obtain ⟨m1, m2, P, Q, σ', _, m4, _, m3, m5, _⟩ := C41_partial (ops := []) trivial rfl (rest := []) hd
    (by rw [List.append_nil]; exact hdec)
  replace m3 := m3 (by decide) trivial
  have nodeOf : ∀ d ∈ N, ∃ p ∈ order (σ.nodes.zipIdx 0), NodeDoc c s (σ.nodes.zipIdx 0) p.1 p.2 d := by
    intro d hd
    obtain ⟨p, h1, h2, _, h3⟩ := World.forall2_right hnd' d hd
    exact ⟨p, h1, h3⟩
  have hlast : ∀ n ∈ σ.nodes, ∃ d ∈ N, d.n = num (σ.nodes.zipIdx 0) n := by
    intro n hn
    obtain ⟨p, hp, rfl⟩ := List.mem_map.1 (hfst.mem_iff.2 hn)
    obtain ⟨d, h1, _, h2, h3⟩ := forall2_left hnd' p hp
    exact ⟨d, h1, by rw [h3.nr, hix p hp]⟩
  have herr : err = none := by
    refine m1.2 ⟨⟨fun d hd => ?_, fun e he => ?_⟩, fun e he => ?_⟩
    · obtain ⟨p, h1, h2⟩ := nodeOf d hd
      exact PropsDoc.fine (k.nprops _ (hin p h1)).1 (k.nprops _ (hin p h1)).2 (hi.1 _ (hin p h1)) h2.props
    · obtain ⟨e0, h1, _, _, h2⟩ := World.forall2_right hed' e he
      have h1 := hL.mem_iff.1 h1
      exact PropsDoc.fine (k.eprops _ h1).1 (k.eprops _ h1).2 (hi.2 _ h1) h2.2.2.2
    · obtain ⟨e0, h1, _, _, h2⟩ := World.forall2_right hed' e he
      have h1 := hL.mem_iff.1 h1
      rw [h2.1, h2.2.1, k.src e0 h1, k.dst e0 h1]
      exact ⟨hlast _ (k.ends e0 h1).1, hlast _ (k.ends e0 h1).2⟩
  subst herr
  obtain ⟨p1, p2⟩ := m5 rfl
  -- the nodes
  rw [← p1] at hnd
  obtain ⟨m, w1, w2, w3, w4⟩ := forall2_pairs (forall2_snd hnd)
  -- the edges
  obtain ⟨L', q1, q2⟩ := List.perm_comp_forall₂ p2 (List.Forall₂.flip hed)
  have q3 : List.Forall₂ (EdgeDoc c s (σ.nodes.zipIdx 0)) L' (Q.map Prod.fst) := List.Forall₂.flip q1
  have q4 := forall2_mem_left (forall2_snd q3)
  have hL' : L'.Perm σ.edges := q2.trans hL
  refine ⟨_, s', hts, hdec, σ', m, L', m3, ⟨?_, ?_, ?_, ⟨Q.map Prod.snd, m4.edges, ?_⟩, m4.oldNode, m4.oldEdge⟩, ?_, hL'⟩
  · rw [m4.nodes, w2]; rfl
  · intro x hx l
    obtain ⟨a, ha, b, hb, hab, rfl⟩ := w3 x hx
    rw [m4.labels b hb, hab.labels]
    exact k.labels a.1 (hin a ha) l
  · intro x hx key
    obtain ⟨a, ha, b, hb, hab, rfl⟩ := w3 x hx
    have := PropsDoc.back (k.nprops _ (hin a ha)).1 (k.nprops _ (hin a ha)).2 (hi.1 _ (hin a ha)) hab.props (m4.nprop b hb) key
    rw [this]; cases σ.nprop a.1 key <;> rfl
  · rw [List.forall₂_map_right_iff]
    refine q4.imp ?_
    rintro e q ⟨he, hq, d1, d2, d3, d4⟩
    have he := hL'.mem_iff.1 he
    have ends := k.ends e he
    rw [k.src e he] at d1
    rw [k.dst e he] at d2
    have find : ∀ n ∈ σ.nodes, ∀ x, (∃ p ∈ P, p.1.n = num (σ.nodes.zipIdx 0) n ∧ p.2 = x) → (n, x) ∈ m := by
      rintro n hn x ⟨p, h1, h2, rfl⟩
      obtain ⟨a, ha, hab, h3⟩ := w4 p h1
      rw [hab.nr, ← hix a ha] at h2
      rw [← zip_inj k.nNodup (hin a ha) hn h2]
      exact h3
    refine ⟨find _ ends.1 _ ?_, find _ ends.2 _ ?_, ?_, ?_⟩
    · rw [← d1]; exact m4.src q hq
    · rw [← d2]; exact m4.dst q hq
    · rw [m4.label q hq, d3, k.label e he]
    · intro key
      have := PropsDoc.back (k.eprops _ he).1 (k.eprops _ he).2 (hi.2 _ he) d4 (m4.eprop q hq) key
      rw [this]; cases σ.eprop e key <;> rfl
  · rw [w1]; exact hfst

/-- C39 holds for graphs that were not spoiled by the defect of C01 nor, if the edges are written separately, by that of C04,
unless the edges are written separately and the graph has no nodes. The properties must survive the functions that write and read them; in particular no key may be
empty. Missing: the other histories and the graph without nodes, for which the property is false (`C39_false`,
`C40_false`); a property with an empty key, for which it is false as well (`C39_false_empty`). -/
theorem C39_partial {ops : List Op} (hv : Spec.ValidHistory ops) (hc : ListOk ops)
    {s : State} (hs : run ops = some s) {c : Codec} (hr : c.separately = true → FiledOk ops)
    {order : AMap Nat Nat → AMap Nat Nat} (ho : ∀ m, (order m).Perm m) (hi : InverseOn c (Spec.run ops)) (hne : c.separately = true → (Spec.run ops).nodes ≠ []) :
    C39_statement c order s (Spec.run ops) := by
  have k := Core.run hv hs
  have hN := NOk.runFrom Core.init NOk.init hv hc hs
  refine Written.copy ⟨hN.getNodes k, k.nNodup, fun n hn => (k.labels n hn).2, k.nprops, k.eNodup, fun e he => ?_,
    fun e he => ?_, fun e he => (k.eattr e he).2.2, k.eprops, k.ends, fun n hn => ?_, fun h => (filed_run hv (hr h) hs).getEdges k⟩ ho hi hne
  · rw [(k.eattr e he).1]
  · rw [(k.eattr e he).2.1]
  · obtain ⟨es, h1, h2⟩ := k.out_enum hn
    exact ⟨es, h1, fun e he => (List.mem_filter.1 (h2.mem_iff.1 he)).1, fun _ => h2⟩

/-- Without functions for single properties, the values must survive `encoding/json`, and no key may be empty. -/
theorem InverseOn.default {c : Codec} {σ : Spec} (hm : c.marshaler = none) (hu : c.unmarshaler = none)
    (hn : ∀ n ∈ σ.nodes, ∀ k v, σ.nprop n k = some v → k ≠ "" ∧ c.unmarshal (c.marshal v) = v)
    (he : ∀ e ∈ σ.edges, ∀ k v, σ.eprop e k = some v → k ≠ "" ∧ c.unmarshal (c.marshal v) = v) : InverseOn c σ := by
  have main : ∀ read : String → Option Value, (∀ k v, read k = some v → k ≠ "" ∧ c.unmarshal (c.marshal v) = v) →
      Inverse c.mar c.unm read := by
    intro read h
    refine ⟨fun k v hk => ⟨(h k v hk).1, k, c.marshal v, (h k v hk).1, by simp [Codec.mar, hm], ?_⟩, ?_⟩
    · simp [Codec.unm, unmarshalProperty, hu, (h k v hk).2]
    · intro k₁ v₁ k₂ v₂ k' j₁ j₂ _ _ h1 h2
      simp only [Codec.mar, hm, Option.some.injEq, Prod.mk.injEq] at h1 h2
      rw [h1.1, h2.1]
  exact ⟨fun n h => main _ (hn n h), fun e h => main _ (he e h)⟩

/-- the conditions can be met -/
example (sep : Bool) : Spec.ValidHistory demoOps ∧ ListOk demoOps ∧ FiledOk demoOps ∧
    (∃ s, run demoOps = some s) ∧ InverseOn (plain sep) (Spec.run demoOps) ∧ (Spec.run demoOps).nodes ≠ [] := by
  refine ⟨by decide +kernel, by decide +kernel, by decide +kernel, ?_, ?_, by decide +kernel⟩
  · exact Option.ne_none_iff_exists'.1 (by decide +kernel)
  · have hN : (Spec.run demoOps).nodes = [1, 2] := by decide +kernel
    have hE : (Spec.run demoOps).edges = [4, 5] := by decide +kernel
    refine InverseOn.default rfl rfl ?_ ?_
    · intro n hn k v h
      rw [hN] at hn
      simp at hn
      rcases hn with rfl | rfl
      · exact absurd h (by simp [Spec.run, Spec.runFrom, demoOps, Spec.step, Spec.new, upd, Spec.detach, Spec.dropEdge, AMap.get])
      · simp [Spec.run, Spec.runFrom, demoOps, Spec.step, Spec.new, upd, Spec.detach, Spec.dropEdge, AMap.get] at h
        obtain ⟨rfl, rfl⟩ := h
        exact ⟨by decide, rfl⟩
    · intro e he k v h
      rw [hE] at he
      simp at he
      rcases he with rfl | rfl
      · simp [Spec.run, Spec.runFrom, demoOps, Spec.step, Spec.new, upd, Spec.detach, Spec.dropEdge, AMap.get] at h
        obtain ⟨rfl, rfl⟩ := h
        exact ⟨by decide, rfl⟩
      · exact absurd h (by simp [Spec.run, Spec.runFrom, demoOps, Spec.step, Spec.new, upd, Spec.detach, Spec.dropEdge, AMap.get])

/-- what the new graph shows, if C39 holds -/
theorem C39_size {c : Codec} {order : AMap Nat Nat → AMap Nat Nat} {s : State} {σ : Spec} (h : C39_statement c order s σ) :
    ((encode c order s).bind (fun o => decode c State.new o.1)).map (fun r => r.2.numNodes) = some (σ.nodes.length : Int) := by
  obtain ⟨ts, s', h1, h2, σ', m, es, h3, h4, h5, _⟩ := h
  rw [h1]
  simp only [Option.bind_some, h2, Option.map_some]
  rw [h3.numNodes, h4.nodes]
  have := h5.length_eq
  simp only [List.length_map] at this
  simp [Spec.new, this]

/-- a graph whose newest node `GetNodes` does not show (C01), with an edge to that node -/
def lostTarget : List Op := [.newNode [] [], .newNode [] [], .detachRemove 1, .newNode [] [], .newEdge 0 2 "e" []]

/-- C39 fails: a node is missing from the copy, although the edge to it is there. -/
theorem C39_false : Spec.ValidHistory lostTarget ∧ ∃ s, run lostTarget = some s ∧
    ¬ C39_statement (plain false) id s (Spec.run lostTarget) := by
  refine ⟨by decide +kernel, ?_⟩
  cases hr : run lostTarget with
  | none => exact absurd hr (by decide +kernel)
  | some s =>
    refine ⟨s, rfl, fun h => ?_⟩
    have h1 := C39_size h
    have h2 : (run lostTarget).bind (fun s => ((encode (plain false) id s).bind (fun o => decode (plain false) State.new o.1)).map
        (fun r => r.2.numNodes)) = some 1 := by decide +kernel
    rw [hr, Option.bind_some, h1] at h2
    exact absurd h2 (by decide +kernel)

/-- In this case the edge goes to the wrong node: it is a loop in the copy. -/
theorem C39_false_redirected : ((run lostTarget).bind (fun s => (encode (plain false) id s).bind
    (fun o => (decode (plain false) State.new o.1).map (fun r => (r.1, r.2.edgeGetFrom 1, r.2.edgeGetTo 1))))) =
      some (none, 0, 0) := by decide +kernel

/-- C39 fails for a property with an empty key: it is written, but `Decode` skips it. -/
theorem C39_false_empty : ∃ s, run [.newNode [] [("", .int 1)]] = some s ∧
    ¬ C39_statement (plain false) id s (Spec.run [.newNode [] [("", .int 1)]]) := by
  cases hr : run [.newNode [] [("", .int 1)]] with
  | none => exact absurd hr (by decide +kernel)
  | some s =>
    refine ⟨s, rfl, ?_⟩
    rintro ⟨ts, s', h1, h2, σ', m, es, h3, h4, h5, _⟩
    have hc : (run [.newNode [] [("", .int 1)]]).bind (fun s => (encode (plain false) id s).bind
        (fun o => (decode (plain false) State.new o.1).bind (fun r => r.2.getNodes.map (fun ns =>
          ns.map (fun n => (r.2.nodeProperty n "").isSome))))) = some [false] := by decide +kernel
    rw [hr] at hc
    simp only [Option.bind_some, h1, h2, h3.nodes, Option.map_some, Option.some.injEq] at hc
    have h0 : 0 ∈ m.map Prod.fst := h5.mem_iff.2 (by decide +kernel)
    obtain ⟨⟨a, x⟩, hm, rfl⟩ := List.mem_map.1 h0
    have hx : x ∈ σ'.nodes := by
      rw [h4.nodes]; exact List.mem_append_right _ (List.mem_map_of_mem (f := Prod.snd) hm)
    have h6 := h4.nprop _ hm ""
    have h7 : (s'.nodeProperty x "").isSome = true := by
      rw [h3.nprop x hx, h6]
      show (Option.map (fun v => v) ((Spec.run [Op.newNode [] [("", Value.int 1)]]).nprop 0 "")).isSome = true
      decide +kernel
    have h8 : (s'.nodeProperty x "").isSome ∈ [false] := by
      rw [← hc]; exact List.mem_map_of_mem (f := fun n => (s'.nodeProperty n "").isSome) hx
    rw [h7] at h8
    simp at h8

end LPG
