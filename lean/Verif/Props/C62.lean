import Verif.Proofs.JsonAccept
import Verif.Props.C39C41
/-!
# C62 Which texts JSON decoding accepts

`Shape ms`: the members of an object have the types of the nodes and edges of a document. `NodeRead` and `EdgeRead` say
what is read from a value, `OddKey` that a text comes to an unknown key with a value that `Decode` does not skip properly
(`Verif.Spec.JsonShape`).
-/
namespace LPG
open Json

/-- The full property for one text: if `Decode` reports no error, then the text begins with an object that has the right
types. -/
def C62_statement (c : Codec) (s : State) (ts : List Tok) : Prop :=
  ∀ s', decode c s ts = some (none, s') → ∃ ms rest, Shape ms ∧ ts = text (.obj ms) ++ rest

/-- C62 holds, whatever the graph is, unless the text comes to an odd key. Missing: texts with odd keys, for which the
property is false (`C62_false`). -/
theorem C62_partial (c : Codec) (s : State) {ts : List Tok} (h : ¬ OddKey ts) : C62_statement c s ts :=
  fun _ hd => (decode_accepted hd).resolve_right h

/-- Odd keys: an object whose unknown keys have values through which `Decode` counts right has none of them. -/
theorem C62_odd {ms : List (String × JVal)} (hs : ∀ p ∈ ms, p.1 ≠ "nodes" → p.1 ≠ "edges" → Skips p.2)
    (rest : List Tok) : ¬ OddKey (text (.obj ms) ++ rest) := notOdd hs

/-- The text of a graph that ends after the nodes has no odd key. -/
theorem truncated_notOdd : ¬ OddKey [.lbrace, .str "nodes", .colon, .lbrack, .lbrace, .rbrace, .rbrack] := by
  rintro ⟨ms, k, r, _, h, hn, _⟩
  cases ms with
  | nil =>
    simp only [textMembers, List.isEmpty_nil, if_true, List.nil_append, List.cons.injEq, Tok.str.injEq, true_and] at h
    exact hn h.1.symm
  | cons p ms =>
    simp only [textMembers, List.isEmpty_cons, Bool.false_eq_true, if_false, List.cons_append, List.cons.injEq, true_and,
      List.append_assoc] at h
    obtain ⟨h1, h2⟩ := text_inj (v := .arr [.obj []]) (r := []) (w := p.2) h.2
    have := congrArg List.length h2
    simp at this

/-- A text that ends too early is not accepted, unless it comes to an odd key. -/
theorem C62_truncated_partial (c : Codec) (s s' : State) {ts more : List Tok} {v : JVal} (hm : more ≠ [])
    (ht : text v = ts ++ more) (h : ¬ OddKey ts) : decode c s ts ≠ some (none, s') := by
  intro hd
  obtain ⟨ms, rest, _, rfl⟩ := C62_partial c s h s' hd
  have : text v ++ [] = text (.obj ms) ++ (rest ++ more) := by rw [List.append_nil, ht, List.append_assoc]
  exact hm (List.append_eq_nil_iff.1 (text_inj this).2.symm).2

example : decode (plain false) State.new [.lbrace, .str "nodes", .colon, .lbrack, .lbrace, .rbrace, .rbrack] ≠
    some (none, State.new) :=
  C62_truncated_partial _ _ _ (more := [.rbrace]) (v := .obj [("nodes", .arr [.obj []])]) (by simp) rfl truncated_notOdd

/-- A document with a value of the wrong type is not accepted: here the wrong value is in any place among the members, and
the members before it are not odd. -/
theorem C62_type (c : Codec) (s s' : State) {ms : List (String × JVal)} {rest : List Tok} {k : String}
    {v : JVal} (hk : (k, v) ∈ ms) (hv : (k = "nodes" ∧ ¬ ListOf NodeShape v) ∨ (k = "edges" ∧ ¬ ListOf EdgeShape v))
    (ho : ¬ OddKey (text (.obj ms) ++ rest)) : decode c s (text (.obj ms) ++ rest) ≠ some (none, s') := by
  intro hd
  obtain ⟨ms', rest', h1, h2⟩ := C62_partial c s ho s' hd
  obtain ⟨h3, _⟩ := text_inj h2
  cases h3
  obtain ⟨g1, g2, _⟩ := h1 _ hk
  rcases hv with ⟨rfl, hv⟩ | ⟨rfl, hv⟩
  · exact hv (g1 rfl)
  · exact hv (g2 rfl)

/-- a label that is a number -/
def badDoc : List (String × JVal) :=
  [("version", .num 1), ("nodes", .arr [.obj [("n", .num 0)], .obj [("Labels", .arr [.str "a", .num 3])]])]

theorem badDoc_shape : ¬ ListOf NodeShape (.arr [.obj [("n", .num 0)], .obj [("Labels", .arr [.str "a", .num 3])]]) := by
  rw [← toSlice_iff toNode_iff]
  simp only [ne_eq, not_not]
  decide +kernel

example (s' : State) : decode (plain false) State.new (text (.obj badDoc)) ≠ some (none, s') := by
  have := C62_type (plain false) State.new s' (ms := badDoc) (rest := []) (k := "nodes") (by simp [badDoc])
    (Or.inl ⟨rfl, badDoc_shape⟩) (C62_odd (by decide) [])
  rwa [List.append_nil] at this

example : ((decode (plain false) State.new (text (.obj badDoc))).map (fun r => (r.1, r.2.numNodes))) =
    some (some .input, 0) := by decide +kernel

/-- The documents of C41 are exactly the objects with the right types, and what is read from them is what their nodes and
edges say. -/
theorem C62_documents (ms : List (String × JVal)) :
    ((∃ N E, Document ms N E) ↔ Shape ms) ∧
    ∀ N E, Document ms N E → List.Forall₂ (OrNull {} NodeRead) (elementsOf "nodes" ms) N ∧
      List.Forall₂ (OrNull {} EdgeRead) (elementsOf "edges" ms) E :=
  ⟨document_iff ms, fun _ _ h => document_read h⟩

example : Shape sample := (C62_documents sample).1.1 ⟨_, _, sample_document⟩

/-- Repeated lists are not replaced, but mixed: the label of the first edge and the second label come from the lists that were
given before. -/
example : (toNode (.obj [("labels", .arr [.str "a", .str "b"]), ("labels", .arr [.str "c"]), ("Labels", .arr [.null, .null]),
      ("edges", .arr [.obj [("to", .num 3), ("label", .str "x")]]), ("edges", .arr [.obj [("to", .num 4)], .obj []])])).map
      (fun n => (n.labels, n.edges.map (fun e => (e.to, e.label)))) = some (["c", "b"], [(4, "x"), (0, "")]) := by decide +kernel

/-- `Decode` accepts exactly the texts that begin with a document whose properties can be unmarshaled and whose edges refer
to its nodes. Missing: texts with odd keys (`C62_false`), and graphs of which `GetEdges` panics (C04). -/
theorem C62_exact_partial {ops : List Op} (hv : Spec.ValidHistory ops)
    {s : State} (hs : run ops = some s) (he : s.getEdges ≠ none) {c : Codec} (hi : LoadIndexable c.unm ops) {ts : List Tok} (ho : ¬ OddKey ts) :
    (∃ s', decode c s ts = some (none, s')) ↔ ∃ ms N E rest, ts = text (.obj ms) ++ rest ∧ Document ms N E ∧
      PropsFine c.unm N (embedded N ++ E) ∧ RefsFine N (embedded N ++ E) := by
  constructor
  · rintro ⟨s', hd⟩
    obtain ⟨ms, rest, h1, rfl⟩ := C62_partial c s ho s' hd
    obtain ⟨N, E, h2⟩ := (document_iff ms).2 h1
    obtain ⟨h3, h4⟩ := (C41_partial hv hs h2 hd).1.1 rfl
    exact ⟨ms, N, E, rest, rfl, h2, h3, h4⟩
  · rintro ⟨ms, N, E, rest, rfl, h2, h3, h4⟩
    obtain ⟨⟨err, s'⟩, hd⟩ := Option.ne_none_iff_exists'.1 (C41_returns hv hs he hi h2 rest)
    have : err = none := (C41_partial hv hs h2 hd).1.2 ⟨h3, h4⟩
    subst this
    exact ⟨s', hd⟩

example : (∃ s', decode (plain false) State.new (text (.obj sample)) = some (none, s')) ∧ ¬ OddKey (text (.obj sample) ++ []) := by
  refine ⟨?_, C62_odd (by decide) []⟩
  have : ((decode (plain false) State.new (text (.obj sample))).map (fun r => r.1)) = some none := by decide +kernel
  obtain ⟨⟨err, s'⟩, h1, h2⟩ := Option.map_eq_some_iff.1 this
  cases h2
  exact ⟨s', h1⟩

/-- Whatever the text is, also if it is not JSON or `Decode` stops with an error: afterwards the graph has its old nodes and
edges as they were, and new ones that are all written in the text. What is enumerated is as in `C41_partial`. -/
theorem C62_any {ops : List Op} (hv : Spec.ValidHistory ops)
    {s : State} (hs : run ops = some s) {c : Codec} {ts : List Tok} {err : Option Err} {s' : State}
    (h : decode c s ts = some (err, s')) :
    ∃ P Q σ', Holds s' σ' ∧ Loaded c.unm (Spec.run ops) σ' P Q ∧ (∀ p ∈ P, NodeIn ts p.1) ∧ (∀ q ∈ Q, EdgeIn ts q.1) ∧
      s'.getNodes = some ((P.map Prod.snd).foldl Listing.create (listingAfter ops)).nodes ∧
      (ListOk (ops ++ [.newNode [] []]) → FiledOk ops → Shows s' σ') := by
  obtain ⟨R, hl⟩ := Loading.start (c := c) hv hs
  obtain ⟨P, Q, l, σ', rfl, k1, k2, k3⟩ := (decode_any hl).2 err s' h
  exact ⟨P, Q, σ', k1.core.holds, k1.loaded, k2, k3, k1.getNodes hv hs, k1.shows⟩

/-- nodes, and then nonsense: the nodes are added, and there is an error -/
example : ((run demoOps).bind (fun s => decode (plain false) s
    (.lbrace :: .str "nodes" :: .colon :: (text (.arr [.obj [("n", .num 1), ("labels", .arr [.str "A"])]]) ++
      [.comma, .comma])))).map (fun r => (r.1, r.2.numNodes)) = some (some .input, 3) ∧
    Spec.ValidHistory demoOps ∧ ListOk (demoOps ++ [.newNode [] []]) ∧ FiledOk demoOps := by
  refine ⟨by decide +kernel, by decide, by decide, by decide⟩

/-- `Decode` does not panic and ends, whatever the text is, if `GetEdges` does not panic and the values of indexed properties suit the index; in
particular, if the graph has no property index. -/
theorem C62_returns_partial {ops : List Op} (hv : Spec.ValidHistory ops)
    {s : State} (hs : run ops = some s) (he : s.getEdges ≠ none) {c : Codec} (hi : LoadIndexable c.unm ops) (ts : List Tok) :
    ∃ err s', decode c s ts = some (err, s') ∧ err ≠ some .stuck := by
  obtain ⟨R, hl⟩ := Loading.start (c := c) hv hs
  obtain ⟨⟨err, s'⟩, hd⟩ := Option.ne_none_iff_exists'.1 ((decode_any (ts := ts) hl).1 ⟨hi, he⟩)
  exact ⟨err, s', hd, fun he => decode_rounds c s s' ts (by rw [hd, he])⟩

/-- C62 fails: the object is not complete (`{"x":{"a":1}`), and `Decode` reports no error. -/
theorem C62_false : ¬ C62_statement (plain false) State.new
    [.lbrace, .str "x", .colon, .lbrace, .str "a", .colon, .num 1, .rbrace] := by
  intro h
  have hd : ((decode (plain false) State.new [.lbrace, .str "x", .colon, .lbrace, .str "a", .colon, .num 1, .rbrace]).map
      (fun r => r.1)) = some none := by decide +kernel
  obtain ⟨⟨err, s'⟩, h1, h2⟩ := Option.map_eq_some_iff.1 hd
  cases h2
  obtain ⟨ms, rest, _, h3⟩ := h s' h1
  have : readValue 100 (text (.obj ms) ++ rest) = none := by rw [← h3]; rfl
  have hlen := congrArg List.length h3
  simp only [List.length_append, List.length_cons, List.length_nil] at hlen
  rw [readValue_text _ 100 rest (by omega)] at this
  cases this

end LPG
