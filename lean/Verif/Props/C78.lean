import Verif.Proofs.RecoverDecode
import Verif.Props.C75
import Verif.Props.C39C41
/-!
# C78: what `Decode` leaves behind when it panics

`Decode` into a graph with a property index panics if the text has a value that the index cannot hold, and `Decode` into a graph
that lost its edges (C49) panics at the first edge. The program may recover and go on with the graph.
-/
namespace LPG
open Json State

theorem Survived.made {s : State} {hist : List (Option Op)} (h : Survived s hist) : Made s hist { s := s } :=
  ⟨[], hist, .start h, by simp, by simp [AMap.get]⟩

theorem tryDecode_fine {s : State} {hist : List (Option Op)} (h : Survived s hist) (o : MapOrder) (c : Codec) (ts : List Json.Tok) :
    ∃ st s', tryDecode o c s ts = some (st, s') ∧ match st with
      | some .panic => Broke s hist s'
      | _ => ∃ cs hist', Calls s hist cs s' hist' ∧ ∀ x ∈ cs, x.1.adds = true ∧ x.2 = false := by
  have h0 : ∃ cs hist', Calls s hist cs s hist' ∧ ∀ x ∈ cs, x.1.adds = true ∧ x.2 = false := ⟨[], hist, Calls.start h, by simp⟩
  unfold tryDecode
  split
  · exact ⟨_, _, rfl, h0⟩
  · rename_i d _
    obtain ⟨st, l, h1, h2⟩ := h.made.loop (o := o) (c := c) (ts.length + 1) 0 d
    refine ⟨st, l.s, by rw [h1]; rfl, ?_⟩
    match st, h2 with
    | none, h2 => obtain ⟨⟨cs, hist', g1, g2, -⟩, -⟩ := h2; exact ⟨cs, hist', g1, g2⟩
    | some .panic, h2 => exact h2
    | some (.error e), h2 => obtain ⟨cs, hist', g1, g2, -⟩ := h2; exact ⟨cs, hist', g1, g2⟩
  · exact ⟨_, _, rfl, h0⟩

/-- `Decode` of any text, in any program that recovers from every panic, returns or panics; it does not run forever. -/
theorem C78_returns {s : State} {hist : List (Option Op)} (h : Survived s hist) (o : MapOrder) (c : Codec) (ts : List Json.Tok) :
    ∃ st s', tryDecode o c s ts = some (st, s') := by
  obtain ⟨st, s', h1, -⟩ := tryDecode_fine h o c ts
  exact ⟨st, s', h1⟩

/-- `Decode` does what it does in the histories of the other properties. -/
theorem C78_same (o : MapOrder) (c : Codec) (s : State) (ts : List Json.Tok) :
    decode c s ts = match tryDecode o c s ts with
      | some (none, s) => some (none, s)
      | some (some (.error e), s) => some (some e, s)
      | _ => none := tryDecode_same o c s ts

/-- When `Decode` panics, the graph is the one that some calls of `NewNode` and `NewEdge` leave, the last of which panicked. The
program goes on with it as after any other panic (`Survived`; C74, C75). -/
theorem C78 {s s' : State} {hist : List (Option Op)} (h : Survived s hist) {o : MapOrder} {c : Codec} {ts : List Json.Tok}
    (hd : tryDecode o c s ts = some (some .panic, s')) :
    ∃ cs op hist', (∀ x ∈ cs, x.1.adds = true ∧ x.2 = false) ∧ op.adds = true ∧ Calls s hist (cs ++ [(op, true)]) s' hist' ∧
      Survived s' hist' := by
  obtain ⟨st, s1, h1, h2⟩ := tryDecode_fine h o c ts
  cases hd.symm.trans h1
  obtain ⟨cs, op, hist', g1, g2, g3⟩ := h2
  exact ⟨cs, op, hist', g3, g2, g1, g1.survived⟩

/-- When it does not, with an error or without, all calls returned. -/
theorem C78_fine {s s' : State} {hist : List (Option Op)} (h : Survived s hist) {o : MapOrder} {c : Codec} {ts : List Json.Tok}
    {st : Option Stop} (hd : tryDecode o c s ts = some (st, s')) (hn : st ≠ some .panic) :
    ∃ cs hist', (∀ x ∈ cs, x.1.adds = true ∧ x.2 = false) ∧ Calls s hist cs s' hist' ∧ Survived s' hist' := by
  obtain ⟨st', s1, h1, h2⟩ := tryDecode_fine h o c ts
  cases hd.symm.trans h1
  match st, h2, hn with
  | none, h2, _ => obtain ⟨cs, hist', g1, g2⟩ := h2; exact ⟨cs, hist', g2, g1, g1.survived⟩
  | some (.error e), h2, _ => obtain ⟨cs, hist', g1, g2⟩ := h2; exact ⟨cs, hist', g2, g1, g1.survived⟩

theorem Spec.Keeps.refl (σ : Spec) : σ.Keeps σ :=
  ⟨fun _ h => ⟨h, rfl, fun _ => rfl⟩, fun _ h => ⟨h, rfl, rfl, rfl, fun _ => rfl⟩⟩

theorem Spec.Keeps.trans {σ τ υ : Spec} (h1 : σ.Keeps τ) (h2 : τ.Keeps υ) : σ.Keeps υ := by
  refine ⟨fun n hn => ?_, fun e he => ?_⟩
  · obtain ⟨a1, a2, a3⟩ := h1.nodes n hn
    obtain ⟨b1, b2, b3⟩ := h2.nodes n a1
    exact ⟨b1, b2.trans a2, fun k => (b3 k).trans (a3 k)⟩
  · obtain ⟨a1, a2, a3, a4, a5⟩ := h1.edges e he
    obtain ⟨b1, b2, b3, b4, b5⟩ := h2.edges e a1
    exact ⟨b1, b2.trans a2, b3.trans a3, b4.trans a4, fun k => (b5 k).trans (a5 k)⟩

/-- Calls that create something keep what is there, whether they panic or not. -/
theorem Calls.keeps {s s' : State} {hist hist' : List (Option Op)} {cs : List (Op × Bool)} (h : Calls s hist cs s' hist')
    (ha : ∀ x ∈ cs, x.1.adds = true) : (Spec.runLost hist).Keeps (Spec.runLost hist') := by
  induction h with
  | start h => exact .refl _
  | @call cs s1 s2 hist1 eff op b o h hv hs ham hS ih =>
    refine (ih (fun x hx => ha x (by simp [hx]))).trans ?_
    have c := h.survived.sound.core
    have ha' : op.adds = true := ha (op, b) (by simp)
    rcases ham.adds ha' with rfl | ⟨-, rfl⟩
    · have e : Spec.runLost (hist1 ++ [some op]) = (Spec.runLost hist1).step op := by simp [Spec.runLost, Spec.stepLost]
      rw [e]
      have hn : ∀ n ∈ (Spec.runLost hist1).nodes, n ≠ (Spec.runLost hist1).next := fun n hn => Nat.ne_of_lt (c.nLt n hn)
      have he : ∀ n ∈ (Spec.runLost hist1).edges, n ≠ (Spec.runLost hist1).next := fun n hn => Nat.ne_of_lt (c.eLt n hn)
      rcases adds_cases ha' with ⟨ls, ps, rfl⟩ | ⟨a, b, l, ps, rfl⟩
      · refine ⟨fun n h => ?_, fun e h => ?_⟩
        · have := hn n h
          simp [Spec.step, h, upd, this]
        · simp [Spec.step, h]
      · refine ⟨fun n h => ?_, fun e h => ?_⟩
        · simp [Spec.step, h]
        · have := he e h
          simp [Spec.step, h, upd, this]
    · have e : Spec.runLost (hist1 ++ [none]) = (Spec.runLost hist1).stepLost none := by simp [Spec.runLost]
      rw [e]
      exact ⟨fun _ h => ⟨h, rfl, fun _ => rfl⟩, fun _ h => ⟨h, rfl, rfl, rfl, fun _ => rfl⟩⟩

/-- Whatever the text and however `Decode` ends, the nodes and edges that the graph had are there and unchanged. -/
theorem C78_kept {s s' : State} {hist : List (Option Op)} (h : Survived s hist) {o : MapOrder} {c : Codec} {ts : List Json.Tok}
    {st : Option Stop} (hd : tryDecode o c s ts = some (st, s')) :
    ∃ hist', Survived s' hist' ∧ (Spec.runLost hist).Keeps (Spec.runLost hist') := by
  by_cases hp : st = some .panic
  · subst hp
    obtain ⟨cs, op, hist', g1, g2, g3, g4⟩ := C78 h hd
    refine ⟨hist', g4, g3.keeps ?_⟩
    intro x hx
    rcases List.mem_append.1 hx with hx | hx
    · exact (g1 x hx).1
    · simp at hx; subst hx; exact g2
  · obtain ⟨cs, hist', g1, g2, g3⟩ := C78_fine h hd hp
    exact ⟨hist', g3, g2.keeps (fun x hx => (g1 x hx).1)⟩

/-- A codec that reads arrays as slices. -/
def sliceCodec : Codec := { plain false with unmarshal := fun j => match j with | .num i => .int i | .arr _ => .list [] | _ => .nil }

/-- A graph with a hash index and a node. -/
def indexedOps : List Op := [.addNodeIndex "k" .hash, .newNode ["L"] [("k", .int 1)]]

/-- Three nodes and an edge. The value of the second cannot be a map key. -/
def sliceDoc : List Json.Tok :=
  text (.obj [("nodes", .arr [.obj [("n", .num 0), ("properties", .obj [("k", .num 1)])],
      .obj [("n", .num 1), ("labels", .arr [.str "M"]), ("properties", .obj [("k", .arr [])])], .obj [("n", .num 2)]]),
    ("edges", .arr [.obj [("from", .num 0), ("to", .num 1)]])])

/-- `Decode` panics at the second node. It is in the graph, with its label and its property; the third node and the edge are not.
Afterwards a node can be removed, and decoding another text works. -/
theorem C78_example : (run indexedOps).bind (fun s => (decode sliceCodec s sliceDoc).map (fun r => r.1)) = none ∧
    (run indexedOps).bind (fun s => (tryDecode .listed sliceCodec s sliceDoc).map (fun r => (r.1, r.2.getNodes, r.2.numEdges))) =
      some (some .panic, some [0, 1, 2], 0) ∧
    (run indexedOps).bind (fun s => (tryDecode .listed sliceCodec s sliceDoc).map (fun r => ((r.2.nodeProperty 2 "k").isSome, r.2.nodeGetLabels 2))) =
      some (true, ["M"]) ∧
    ((run indexedOps).bind (fun s => (tryDecode .listed sliceCodec s sliceDoc).bind (fun r => (recoverStep .listed r.2 (.detachRemove 1)).bind
      (fun q => (tryDecode .listed sliceCodec q.1 (text (.obj sample))).map (fun r => (q.2, r.1, r.2.getNodes, r.2.numEdges)))))) =
      some (false, none, some [0, 2, 3, 5], 3) := by
  refine ⟨by decide +kernel, by decide +kernel, by decide +kernel, by decide +kernel⟩

end LPG
