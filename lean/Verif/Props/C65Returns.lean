import Verif.Props.C65
/-!
# C65: when Encode returns

After a valid history `Encode` reaches its end, whatever it writes to, except in one case: the edges are written separately,
and the single edge of the graph-wide list is nil (C04). Then it panics when it has written everything before the edges.
-/
namespace LPG
open Json

/-- The nodes can be written after every history. -/
theorem writeNodes_returns {ops : List Op} (hv : Spec.ValidHistory ops) {s : State} (hs : run ops = some s) (c : Codec)
    (m m' : AMap Nat Nat) (first : Bool) : writeNodes c s m first m' ≠ none := by
  have k := Core.run hv hs
  have g := Gone.init.runFrom Core.init hv hs
  refine writeNodes_some (fun p _ => ?_)
  by_cases hp : p.1 ∈ (Spec.run ops).nodes
  · obtain ⟨es, h1, _⟩ := k.out_enum hp
    intro h2
    exact absurd (h1.symm.trans h2) (by simp)
  · have := (g p.1 hp).2
    simp [State.nodeEdges, this, EdgeMap.enum, EdgeMap.empty]

/-- After every history `Encode` returns, with every codec, exactly unless the edges are written separately and `GetEdges`
cannot be run. -/
theorem C65_returns {ops : List Op} (hv : Spec.ValidHistory ops) {s : State} (hs : run ops = some s) (c : Codec)
    (order : AMap Nat Nat → AMap Nat Nat) :
    encode c order s = none ↔ c.separately = true ∧ s.getEdges = none := by
  obtain ⟨ns, hN, _⟩ := C01_order_partial ops hv s hs
  obtain ⟨o, ho⟩ := Option.ne_none_iff_exists'.1
    (writeNodes_returns hv hs c (number 0 ns []) (order (number 0 ns [])) true)
  unfold encode
  rw [hN]
  simp only [ho]
  cases hsep : c.separately with
  | false => simp
  | true =>
    cases hE : s.getEdges with
    | none => simp
    | some es => simp

theorem writeNodes_edges (c : Codec) (s : State) (m : AMap Nat Nat) (em : EdgeMap) : ∀ (xs : AMap Nat Nat) (first : Bool),
    writeNodes c { s with allEdges := em } m first xs = writeNodes c s m first xs
  | [], _ => rfl
  | (n, ix) :: xs, first => by
    have he : ∀ es first, writeOutgoing c { s with allEdges := em } m first es = writeOutgoing c s m first es := by
      intro es
      induction es with
      | nil => intro first; rfl
      | cons e es ih => intro first; simp only [writeOutgoing, ih]; rfl
    simp only [writeNodes, writeNodes_edges c s m em xs false, writeNode, he]
    rfl

/-- a panic after a piece of `Encode` -/
theorem Piece.stop {ω ε : Type} (p1 p2 p3 p4 p5 q : Piece ω ε) (w : ω) :
    (p1.andThen (p2.andThen ((p3.andThen (p4.andThen (p5.andThen (fun _ => none)))).andThen q))) w =
      match (p1.andThen (p2.andThen (p3.andThen (p4.andThen p5)))) w with
      | none => none
      | some (_, none) => none
      | some (w, some e) => some (w, some e) := by
  simp only [Piece.andThen]
  rcases p1 w with _ | ⟨w, _ | e⟩ <;> dsimp only
  rcases p2 w with _ | ⟨w, _ | e⟩ <;> dsimp only
  rcases p3 w with _ | ⟨w, _ | e⟩ <;> dsimp only
  rcases p4 w with _ | ⟨w, _ | e⟩ <;> dsimp only
  rcases p5 w with _ | ⟨w, _ | e⟩ <;> dsimp only

/-- In the exceptional case `Encode` gives the writer, piece by piece, what it writes for the same graph with an empty edge list,
but for the closing brackets. If the writer fails or a property has an error this error is returned; otherwise `Encode` panics. -/
theorem C65_nil {ops : List Op} (hv : Spec.ValidHistory ops) {s : State} (hs : run ops = some s) {c : Codec}
    {order : AMap Nat Nat → AMap Nat Nat} (hsep : c.separately = true) (hE : s.getEdges = none)
    (bytes : Tok → List UInt8) : ∃ (ts : List (List UInt8)) (t : List Tok) (ok : Bool), ts.flatten = t.flatMap bytes ∧
      encode c order { s with allEdges := EdgeMap.empty } = some (if ok then t ++ [.rbrack, .rbrace] else t, ok) ∧
      ∀ (ω ε : Type) (out : Writer ω ε) (w : ω), encodeTo bytes out c order s w =
        match feed out ok ts w with
        | (_, none) => none
        | (w, some e) => some (w, some e) := by
  obtain ⟨ns, hN, _⟩ := C01_order_partial ops hv s hs
  obtain ⟨o, ho⟩ := Option.ne_none_iff_exists'.1
    (writeNodes_returns hv hs c (number 0 ns []) (order (number 0 ns [])) true)
  have hA : Sends bytes (fun out => writeNodeArrayTo bytes out c s (number 0 ns []) order)
      (if (number 0 ns []).length > 0 then
          Out.andThen (emit [.str "nodes", .colon]) (Out.andThen (emit [.lbrack]) (Out.andThen o (emit [.rbrack])))
        else emit []) := by
    unfold writeNodeArrayTo
    split
    · exact (Sends.put _).andThen ((Sends.put _).andThen ((writeNodes_sends ho).andThen (Sends.put _)))
    · exact Sends.skip
  have hB := (Sends.put (bytes := bytes) [.lbrace]).andThen (hA.andThen ((Sends.put [.comma]).andThen
    ((Sends.put [.str "edges", .colon]).andThen (Sends.put [.lbrack]))))
  have key : ∀ X : Out, Sends bytes (fun out => (put bytes out [.lbrace]).andThen
        ((writeNodeArrayTo bytes out c s (number 0 ns []) order).andThen ((put bytes out [.comma]).andThen
          ((put bytes out [.str "edges", .colon]).andThen (put bytes out [.lbrack]))))) X →
      encode c order { s with allEdges := EdgeMap.empty } = some (if X.2 then X.1 ++ [.rbrack, .rbrace] else X.1, X.2) →
      ∃ (ts : List (List UInt8)) (t : List Tok) (ok : Bool), ts.flatten = t.flatMap bytes ∧
        encode c order { s with allEdges := EdgeMap.empty } = some (if ok then t ++ [.rbrack, .rbrace] else t, ok) ∧
        ∀ (ω ε : Type) (out : Writer ω ε) (w : ω), encodeTo bytes out c order s w =
          match feed out ok ts w with
          | (_, none) => none
          | (w, some e) => some (w, some e) := by
    rintro X ⟨ts, h1, h2⟩ he
    refine ⟨ts, X.1, X.2, h1, he, fun ω ε out w => ?_⟩
    have hw := h2 ω ε out w
    unfold encodeTo
    rw [hN]
    simp only [writeEdgeArrayTo, hsep, if_true, hE]
    rw [Piece.stop]
    dsimp only at hw
    rw [hw]
    cases feed out _ ts w with
    | mk w e => cases e <;> rfl
  refine key _ hB ?_
  have hN' : State.getNodes { s with allEdges := EdgeMap.empty } = some ns := hN
  unfold encode
  rw [hN']
  simp only [writeNodes_edges, ho, hsep, if_true]
  have : State.getEdges { s with allEdges := EdgeMap.empty } = some [] := rfl
  rw [this]
  obtain ⟨t, ok⟩ := o
  cases ok <;> by_cases hl : (number 0 ns []).length > 0 <;>
    simp [hl, Out.andThen, emit, writeEdges]

/-- The property fails: `Encode` of a graph does not return. The graph has one edge in the end, but the graph-wide list
holds nil in place of it. -/
theorem C65_false : ∃ ops s c, Spec.ValidHistory ops ∧ run ops = some s ∧ (Spec.run ops).edges = [3] ∧ encode c id s = none := by
  obtain ⟨s, hs⟩ := Option.ne_none_iff_exists'.1 C04_false_panic.2.1
  refine ⟨_, s, ⟨true, fun _ => .null, fun _ => .str "", none, none⟩, by decide +kernel, hs, by decide +kernel, ?_⟩
  have : (run [.newNode [] [], .newEdge 0 0 "A" [], .newEdge 0 0 "B" [], .newEdge 0 0 "B" [],
      .setEdgeLabel 1 "B", .removeEdge 1, .setEdgeLabel 2 "A", .removeEdge 2]).bind
        (fun s => encode ⟨true, fun _ => .null, fun _ => .str "", none, none⟩ id s) = none := by
    rw [← Option.isNone_iff_eq_none]; decide +kernel
  rw [hs] at this
  exact this

end LPG
