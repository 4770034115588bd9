# A Lean 4 model of cloudprivacylabs/lpg

## 1. Layout

```
lean/Verif/Model/*.lean    the model: total, computable functions, one per Go function, each citing file:lines
lean/Verif/Spec/*.lean     small independent specifications (what a user would write down)
lean/Verif/Proofs/*.lean   helper lemmas and invariants
lean/Verif/Props/*.lean    the property theorems (C01 .. ), with non-vacuity examples beside them
```

`MANIFEST.json` maps each property to the theorems that settle it. `seeded/LOG.jsonl` records the
wrong programs we tried against the theorems.

## 2. Modelling decisions

* **Heap.** A Go object is an address; each struct field is a function from addresses to values
  (Burstall's memory model), so a pointer assignment `x.f = v` is an update of the field function `f`
  at `x`. Within one graph a node or edge is identified with its `id`: ids come from one counter
  (`Graph.idBase`), are assigned once at allocation, and are never changed (C03), so pointer equality
  inside one graph is id equality. Several graphs are a family of such states; a handle is then
  (graph, id).
* **Intrusive lists are modelled at pointer level** (`next`/`prev`/`head`/`tail`): `nodeList`,
  `edgeList` and the three list slots per edge. Iteration follows the pointers, with the number of
  allocated ids as fuel; running out of fuel means that the Go loop would not terminate.
* **Go maps** are association lists. The position in the list stands for the (arbitrary) iteration
  order, so a theorem quantified over the list holds for every iteration order. Operations where Go
  iterates over a caller-supplied set take that set as a list in an arbitrary order.
* **Panics** (nil dereference, failed type assertion, explicit panic, unhashable map key) are an
  explicit `none`/error outcome that ends the history. `Model/Recover.lean` models the calls that change the graph once
  more, for a program that recovers from a panic of a property index and goes on with what the call left behind
  (C68, C69, C70). `Model/RecoverNil.lean` adds the panics of the edge map of the graph (C74); these are all panics of
  calls on nodes and edges of the graph (`C74_returns`). `Model/RecoverWorld.lean` does this for several graphs (C80). `Model/RecoverDecode.lean` does the same for `Decode` (C78).
  `Model/RecoverCopy.lean` does it for `CopyGraph` and `CopySubgraph` (C79). There a btree index is taken to panic whenever the value
  cannot be compared with one of its entries, although Go compares it only with the entries on one search path.
* **Library types** that are not part of the repository are modelled by their documented behaviour:
  `container/list` as a list of cells with identities, `linkedhashmap` as an insertion ordered
  association list, `gods/btree` as a list sorted by the comparator, `encoding/json` at the level of
  tokens and JSON trees.
* `int` is `Int`/`Nat` (no overflow). Strings are Lean `String`s; Go compares strings bytewise, which
  for valid UTF-8 is the code point order Lean uses.
* Iterators are lazily evaluated in Go and documented to be undefined when the graph is modified
  during iteration. The combinators of itr.go are modelled as state machines and shown to produce the
  expected list; the graph model then uses lists. `Model/Live.lean` keeps the iterator of `GetNodes` alive
  while the graph changes, `Model/EdgeHeap.lean` the iterators over edges.
* **Edge maps** are values in `Model/Graph.lean`. `Model/EdgeHeap.lean` models them again with references to the linked
  hash map and the edge lists, because an iterator keeps such references while the map drops them. `run_abs` proves
  that both models agree on every history. `Model/LabelHeap.lean` does the same for the sets of the label index
  (`C59_model`), and has the iterators of `GetNodesWithAllLabels`. `Model/LiveProps.lean` has those of
  `GetNodesWithProperty` and `GetEdgesWithProperty` with a hash index, and of the former without an index. The iterators of
  a btree index are not modelled while the graph changes; loops over the edges with a property without an index are
  `C61_edge_scan`. `Model/LiveMany.lean` joins these models to one in which a program holds any number of iterators.
* Concurrency: the package has no synchronisation and no goroutines; nothing to model.

## 3. Properties: how each is stated, proved, and what came out

`ValidHistory ops → run ops = some s → ... (Spec.run ops) ...` is the usual form: `ops` is any list of API calls on
live nodes and edges, `run` executes the model of the Go code, `Spec.run` computes the abstract graph (a few lines per
operation, `Spec/Graph.lean`). Theorems whose name ends in `_partial` have a condition that the property as stated does
not have; the doc comment says what is missing. Where the code violates the property, the negation is proved with a
concrete history (`_false...`), so the condition cannot be dropped altogether.

The conditions on histories that are used (`Spec/Conditions.lean`, `Spec/IndexConditions.lean`, `Spec/LabelConditions.lean`):

* `ListOk` (`Spec/ListOk.lean`): no node is created after the newest live node was removed, unless the graph was empty then
  (defect of `nodeList.remove`). This is the exact condition for C01 (`C01_iff`). `NoCreateAfterTailRemoval` is the simpler,
  stronger form without the exception (`ListOk.of_noCreate`);
* `FiledOk` (`Spec/Filed.lean`): an edge that is removed has the label under which the graph filed it, that is, the one it
  was created with (defect of `setEdgeLabel`). `NoRelabeledRemoval` / `NoRelabel`: simpler, stronger forms: no edge is removed
  after `SetLabel` / no `SetLabel` (`FiledOk.of_keep`);
* `NodeIndexSafe`, `EdgeIndexIntact`: an index is created while the enumerations are right, that is, while the history is
  `ListOk` / `FiledOk`; for the second also: no edge with an indexed property is removed with `Edge.Remove` (defect of
  `removeEdge`). `EdgeIndexSafe` (`Spec/IndexExact.lean`) drops the last part;
* `NoLabelClearing`: labels are not replaced by the empty set (defect of `NodeMap.Replace`);
* `IndexableValues`: values of an indexed property suit the index.

| id | status | method, and what is false of the code |
|----|--------|------|
| C01 | partial | pointer-level `nodeList`; invariant by induction over the history. False: `nodeList.remove` sets `tail` to the removed node, so later nodes are lost or the removed node reappears; when exactly: `C01_iff`. `Spec/Listing.lean` describes the enumeration after every history (`C01_listing`): removed nodes that stay, live nodes behind them, and chains of lost nodes, of which only the last nodes matter |
| C02, C03 | proved | counter invariants, all histories |
| C04, C07 | partial | pointer-level `edgeMap`. False after `SetLabel` (the graph-wide map is not refiled), corrupt after `SetLabel` + `Remove`; which labels give right answers: `C07_iff`; what the first such removal does: `C04_misfiled`; what is true in every history: `Props/C04Always.lean` (the pointers always lead to newer edges, `Proofs/EdgeMono.lean`) |
| C05, C06 | proved | representation invariant of the per-node edge maps |
| C08, C09 | proved | refinement to the abstract graph |
| C10 | proved | invariant of the label index that tolerates stale entries |
| C11 | partial | the empty label set panics in every state |
| C12, C13 | partial | index content invariant, hash and btree. False: scan of a broken list; `Edge.Remove` leaves the entry (exactly what is left: `C13_left`). What a lookup of nodes yields after any history: `C12_tracks`, `C12_exact` (`Spec/Lookup.lean`). What an index of edges lists after any history, with the strays of an index made over a list that has an edge twice: `C13_tracks` (`Spec/EdgeTrack.lean`, `Proofs/EdgeTrack.lean`) |
| C14–C16 | partial | FindNodes/FindEdges with the choice of iterator. False: nil iterator for properties without labels; unfiltered edges; wrappers of wrappers. `C16_exact` says what FindEdges yields after every history, damaged edge lists included |
| C17, C18 | proved | recursive value type, comparison with `none` for a panic |
| C19 | proved | heap of maps; programs over any number of sets refine finite sets |
| C20 | proved | cell-level `fastSet` refined to an insertion-ordered list |
| C21 | partial | False: sets are keyed by id, nodes of different graphs collide |
| C22 | proved | table with free list refined to reference counts |
| C23 | partial | iterators as state machines. False: `MaxSize` of `GetEdgesWithAnyLabel(AnyEdge)` |
| C24–C27 | partial | paths as in Go, panics explicit. False: unchecked `Append` on the empty path, `AppendPath` drops single nodes and changes its argument, `Slice(s,s+1)`, `RemoveLast`/`RemoveFirst` delete the edge from the graph |
| C28 | proved | depth-first search with callbacks; termination is part of the theorem; exact enumeration of trails |
| C29–C33 | partial | planner, plan processors with their mutable state, declarative match relation (`Spec/Pattern.lean`). False: edge starts ignore Min/Max 0; names bound to edges; undirected edge starts panic; loops at undirected items twice; path of right-to-left edge starts; trails before the start lose all but one edge in the path, and the search panics if what is left does not fit together (`Props/C32Exact.lean` has the exact conditions; `Props/C30Starts.lean` covers every start, `Props/C29Bound.lean` every binding of the names of edge items; `Props/C31.lean` compares starts by how often each match is reported); free names used twice (`Props/C33Repeated.lean` bounds what is reported: the name could have been respected with the same values up to its first use). The history must only leave intact what the chosen start item uses (`StartRight`); `Props/C30Listed.lean` says what is found after any other history, and shows that a removed node may be reported and a live one missed |
| C34 | partial | False only through C01 (Sources, Sinks) |
| C35, C36 | partial | odometer search; exact characterisation of the answer (`C36_decides`; after every history `C36_listing`). False: the node map need not be one to one |
| C37, C38 | partial | copies over the model of several graphs, spoiled or not (`Copying`, `Proofs/Clone.lean`); reachability; copies return if the values suit the indexes of the target and it can list its edges. False: nodes lost by C01; copying a graph to itself never ends; a new edge panics in a target spoiled by C04 (`C38_false`). The loops with their iterators do the same as the modelled loops over lists (`Model/CloneLive.lean`, `C37_live`, `C38_live`: new edges leave new nodes, so that the lists of the old nodes do not change). Several calls of CopySubgraph with one map, empty or not: `C38_given` |
| C39–C41 | partial | Encode as text, reader of JSON values, Decode over tokens. False: see the notes in MANIFEST.json. After every history the round trip gives `Spec.written` (`Props/C39Listed.lean`). What `Decode` does with unknown keys: `skim` (`Spec/JsonGraph.lean`) follows its count through a value; the loop's rounds are followed by `Ends` (`Proofs/JsonOdd.lean`), and `Props/C41Odd.lean` says when a key makes no difference, drops the rest, lets inner members out or swallows members |
| C42 | proved | any number of graphs on one heap (`Model/World.lean`) |
| C43 | partial | False: `NewEdge` accepts removed nodes |
| C44 | partial | False for AnyEdge: targets of incoming edges instead of their sources |
| C45 | partial | writer and renderer as functions with failures at any point. False only through C01/C04 |
| C46 | partial | False after labels are replaced by the empty set; what is listed then follows from the labels that are left (`Spec/LabelLeft.lean`, `Proofs/LabelLeft.lean`) |
| C47 | proved | property maps as heap objects (`Model/PropHeap.lean`) |
| C48 | proved | direct |
| C49 | partial | progress (`step_total`). False: `NewEdge` can panic after `SetLabel` + `Remove`. Exact for all histories (`C49_exact`): only creating an edge or the first edge index on a property can panic, exactly when `GetEdges` would yield a nil edge |
| C50 | proved | the btree keeps its entries sorted; every index holds objects under their current values, in all histories |
| C51 | partial | each graph of a `World` represents the abstract graph that its own calls build; programs return (`Proofs/WorldTotal.lean`), exactly when: `Props/C51Exact.lean`; without conditions the node enumeration of each graph is the one of C01 (`Proofs/WorldListing.lean`) |
| C52 | partial | path objects with Go slices on a heap (`Model/PathHeap.lean`) refine path values. False when the caller shares a slice |
| C53 | partial | accumulators over the reports of C30/C32. False: an edge start from right to left returns the last nodes, and a trail before the start the node before its last edge (`Props/C53Exact.lean` has the exact nodes for every start) |
| C54 | proved | reader and writer of JSON values over the heap of maps of C19 |
| C55 | proved | induction over the calls |
| C56 | proved | the operations and queries commute with an injective renaming of ids; `ρ` enumerates the addresses that the graph owns in the last world; the calls on one graph as an explicit program (`alone`), which return exactly if the program over all graphs does, and which use live handles if it does |
| C57 | partial | `Model/Live.lean`: a program calls `Next` and operations in any order; two facts that hold in every history (`NLinked`: a live node is pointed to by the node it points back to, nothing follows `tail`) keep the listed nodes that still exist reachable from wherever the loop is (`NReach`), so `C57_listed` has no condition. False after C01's defect; a node that comes next is visited although it was removed; a loop that creates nodes does not end |
| C58 | partial | `Model/EdgeHeap.lean`: edge maps with references, iterators over them. Invariant `MapInv`: the edges an iterator will yield. False if the body removes an edge that comes next (it is visited, and others are skipped), relabels the edge it is at (visited twice), or removes edges in both directions when there is an edge from the node to itself |
| C59 | partial | `Model/LabelHeap.lean`: the label index with references to sets, and its iterators. Invariant `LblInv`: the cells an iterator will go through are the end of the list of one set. False if the body removes the node that comes next (it is yielded, and the loop ends early), takes the label from it (the loop ends early), or takes the label from a visited node and gives it back (visited twice). Relabelling every visited node is proved without conditions (`C59_relabel`). |
| C60 | partial | relation `Over` (`Proofs/Stale.lean`): two states that differ only in what hangs off dead objects; every valid call keeps it, every harmless call keeps it with no step on the other side. False for a second `DetachAndRemove` or `Edge.Remove`, `SetLabels` and `SetProperty` that file the node in an index, `SetLabel` of a removed edge, `NewEdge` to a removed node |
| C61 | partial | `Model/LiveProps.lean`: iterators over the list of a hash index (`listIterator`) and over all nodes or all edges with a filter. Invariant `CellInv`: the cells left are the end of the list. A loop without an index is a loop over all nodes or edges that skips some (`Thin`). False if the body removes the node that comes next (the loop ends early), or sets the property of a visited node (visited again; with two nodes the loop never ends, `C61_forever`, though it ends without the index, `C61_scan_set_partial`) |
| C62 | partial | induction over the rounds of the token loop in front of a member: the tokens read so far are the text of members of the right types (`Accepted`, `Proofs/JsonAccept.lean`); the types and what is read are stated without the model's readers (`Spec/JsonShape.lean`) and proved equivalent (`Proofs/JsonShape.lean`, `Proofs/JsonRead.lean`). For any input and any graph `Loading` is kept. False after an unknown key whose value `Decode` does not skip properly (`Skips`): `{"x":{"a":1}` is accepted though it is not complete (`C62_false`, for all such texts `C62_cut`) |
| C63 | partial | the exact content of the entry found, through the total order of C18 and what the indexes satisfy in all histories (`Proofs/IndexAlways.lean`). Hash indexes on edges that were created over a damaged edge list: what is found is right (`C63_hash_edges`), but an edge may be missed, since GetEdges can yield an edge twice (`C04_twice_false`) and the index then lists it twice (`C63_hash_edges_false`) |
| C64 | partial | the calls are a fold over the nodes and then over the edges between copied nodes, for arbitrary functions that keep the source; cloning functions with a filter in the model of several graphs; for spoiled sources in terms of what they list; with the iterator as it is: `C64_live`. Not for functions that change the source or the map |
| C65 | partial | the calls of Write one by one with an arbitrary writer with state (`Model/EncodeTo.lean`); the pieces do not depend on the writer and together are the text of `Model/Json.lean`. Encode returns after every history exactly unless the edges are written separately and GetEdges cannot be run, which happens (`C65_false`) when the history spoils the edge list (C04) and NumEdges is 1. Not a Write that changes the graph or panics. |
| C66 | proved | `Model/Show.lean`: `String` of nodes, edges, paths, properties and string sets over lists of characters, as a relation because maps are visited in any order; `%v` of values, the handle test and `unicode.IsSpace` are parameters. A path of one node has the empty text (`C66_single`); labels with colons can be confused (`C66_labels_false`). |
| C67 | partial | `Model/PlanRuns.lean`: a plan with the iterator of its start and the results of its processors, run any number of times. The first run uses the iterator up (`C67_false`); later runs return what a new plan would for the candidates that are left (`C67_resumes`), nothing at all after a run without an error (`C67_spent`). The proof shows that a step reads only results of earlier steps of the same run (`Blind.steps`). With other symbols in later runs: `C67_symbols`, `C67_symbols_false`. |
| C68 | proved | `Model/Recover.lean`: every call under `recover`, with what it leaves behind. Without the indexes each call is one of the calls, or some of the calls, of the ordinary model (`Spec.Amounts`), so the program has the graph of a valid history. |
| C69 | proved | the list of the hash index holds an element that is in none of its sets, which no later call can remove (`IxNext.orphan`); the value stays because both setters remove the old value from the index first |
| C70 | proved | `ORep`: a hash index apart from such elements. The converse is false (`C70_all_false`, `C70_live_false`). |
| C71 | partial | `Model/NodeMapAlone.lean`: any calls on a map beside the graph; where they file the nodes is an account of its own (`Filing` in `Spec/NodeMapAlone.lean`). False: `Replace` with no new labels, `IsEmpty` with unlabelled nodes (`C71_false`). |
| C72 | proved | Decoding and copying as histories (`Proofs/Ordinary.lean`): each leaves the graphs that some valid calls of `NewNode` and `NewEdge` leave. This makes the theorems about histories of `Op` theorems about programs that also decode and copy. |
| C73 | partial | Pairs of programs (`Spec/Same.lean`): a renaming of nodes and edges that respects labels, properties and ends (`Spec.SameAs`); the theorems transfer filters of the abstract graph along it. Matches of patterns are renamed item by item. The JSON round trip (C39, C72) and `CopyGraph` into an empty graph (C37) give such renamings. False in general, because C01, C04, C07 and C13 are. |
| C74 | proved | `Model/RecoverNil.lean`: the states that `NewEdge` and `AddEdgePropertyIndex` leave behind when the edge map of the graph holds a nil edge. `Spec/RecoverNil.lean`: histories with lost calls, each of which uses up an id. The nil edge stays because `remove` compares it with the edge to remove (edgemap.go:77-80). |
| C75 | proved | `IxsSub`: each index holds a part of the current properties. `Proofs/RecoverEdge.lean`: it holds for indexes on edges after any call, whether it returns or panics. |
| C76 | proved | `Proofs/LiveReturns.lean`: the pointers lead to newer edges also from lists that the map has given up (`HMono`), and each list is followed by one further back in the same order (`listsFrom`), so `Next` without an index ends. |
| C77 | proved | `Model/LiveMany.lean` joins the three models of loops (`State`, `HState`, `LState`) to one (`FState`); `Proofs/LiveMany.lean` projects a program to one of its iterators (`liveMany_only`) and to the separate models (`live_sim`). |
| C78 | proved | `Model/RecoverDecode.lean`: `Decode` with `NewNode` and `NewEdge` under `recover`. `Proofs/RecoverDecode.lean`: each part of `Decode` is a sequence of such calls that stops at the first panic (`Fine`), and agrees with `Model/Json.lean` (`collapse`). |
| C79 | proved | `Model/RecoverCopy.lean`: the copies of `Model/Clone.lean` with the world that they leave when they panic. `Proofs/RecoverCopy.lean`: a copy that goes on does what it does in a target without indexes (`bareAt`), so the invariant of the copying loops holds at the panic (`Left`). |
| C80 | proved | `Model/RecoverWorld.lean`: the recovering calls of C74 on the graphs of `Model/World.lean`. `Spec/RecoverWorld.lean`: histories on several graphs with lost calls. Without its indexes the world is one that calls which return have made (`Bared`), so the invariants of C42 hold. `Proofs/RecoverWorldIx.lean`: an index holds only objects of its graph, so calls on other graphs do not change what its objects have. `Filed` in `Proofs/RecoverWorld.lean`: the label index of each graph files its nodes, so lookups of labels are right in each graph (`Props/C80Labels.lean`). |
| C81 | proved | The copies of C79 (`Model/RecoverCopy.lean`) in the worlds of C80. The invariants that the proofs of C79 use hold there with the indexes (`SurvivedAll.rep`). The programs of C80 have the steps of copies (`cloneNode`, `cloneEdge`) besides calls, so copies may come anywhere in the program (`C81_goes_on`). |

## 4. Which code is modelled

`tools/coverage.py` lists the functions of the repository that no definition cites. Two of 323 are left:
`buildPropertyFilterFunc`, which nothing calls, and `ErrInvalidGraph.Error`, the text of an error (only which error is
returned is modelled). One-line wrappers are cited where the definition of what they call is (accessors of nodes, of
iterators and of plan processors, `NewEdgeSet`, `graphIndex.NodesWithProperty` and the like), and constructors of plan
processors at the constructors of `Proc`. The text that `logf` prints is not modelled.

Simplifications, besides those of section 2:

* `Model/Path.lean` treats a path as a value; C52 proves when this is right;
* callbacks (filters, accumulators, predicates, equivalence functions, renderers) are functions; they do not change the
  graph. Accumulators and writers may have a state;
* in `Model/World.lean` addresses come from one counter for all graphs, while ids in Go are per graph (C56 shows that
  this makes no difference: the per-graph ids stand in increasing order for the addresses);
* `encoding/json` is modelled at the level of tokens and values; strings are quoted by a function that is inverse to the
  reader; numbers are integers or other literals, which no field takes. What is kept of a first `labels` or `edges` in a node
  when there is a second one is modelled (`toSliceInto`);
* the symbol table of a pattern maps names to sets of nodes or edges; the callbacks of the accumulator see copies.

## 5. Trusted base

* Lean's kernel. Every theorem of the manifest depends on no axioms but `propext`, `Classical.choice` and `Quot.sound`
  (`#print axioms`); no `sorry`, no `native_decide`, no axioms of our own.
* The reading of the Go source that the comments in `lean/Verif/Model` record, with the simplifications above.
* The behaviour of the Go language and of the libraries listed in section 2.
* The specifications in `lean/Verif/Spec` and the statements in `lean/Verif/Props`.

## 6. Testing the theorems

`seeded/LOG.jsonl` has one line for each wrong edit of a model definition that was tried: which theorems stopped
proving, and which theorems were tightened because they still proved.
