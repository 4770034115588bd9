{
 "claims": [
  {
   "property": "C01",
   "status": "partial",
   "theorems": [
    "LPG.C01_partial",
    "LPG.C01_order_partial",
    "LPG.C01_false_missing",
    "LPG.C01_false_removed",
    "LPG.C01_false",
    "LPG.C01_safe_partial",
    "LPG.C01_iff",
    "LPG.C01_lost",
    "LPG.C01_ghost",
    "LPG.C01_listing",
    "LPG.C01_shown",
    "LPG.C01_right_iff"
   ],
   "note": "The property is false of the code: removing the newest node leaves the tail of the node list pointing at it, so nodes created later are lost or the removed node reappears (C01_false_*). Proved: the exact condition on histories under which GetNodes is right after every prefix (C01_iff; sufficient: C01_safe_partial, C01_partial); what is lost and which removed node comes back after the first unsafe creation (C01_lost, C01_ghost); increasing order for all histories. What GetNodes yields after every history, node by node, is described by a small machine over creations and removals (C01_listing, C01_shown), and so is when it is right at a given moment, also after it was wrong (C01_right_iff)."
  },
  {
   "property": "C02",
   "status": "proved",
   "theorems": [
    "LPG.C02",
    "LPG.C02_count"
   ],
   "note": "All histories."
  },
  {
   "property": "C03",
   "status": "proved",
   "theorems": [
    "LPG.C03_unique",
    "LPG.C03_live"
   ],
   "note": "All histories."
  },
  {
   "property": "C04",
   "status": "partial",
   "theorems": [
    "LPG.C04_partial",
    "LPG.C04_false_witness",
    "LPG.C04_false",
    "LPG.C04_false_count",
    "LPG.C04_false_panic",
    "LPG.C04_filed_partial",
    "LPG.C04_ends_partial",
    "LPG.C04_atLeast_partial",
    "LPG.C04_kept",
    "LPG.C04_misfiled",
    "LPG.C04_twice_false"
   ],
   "note": "False of the code: SetLabel does not refile the edge in the graph-wide edge map, and removing it afterwards corrupts the map (C04_false*). Proved for every history that removes no edge while its label differs from the label it was created with (C04_filed_partial, C04_partial). The first such removal: C04_misfiled says exactly when the number and the enumeration are still right after it, C04_kept what they are if no edge is filed under the label. In every history NumEdges is never too small (C04_atLeast_partial), and the iterations end unless NumEdges is 1 (C04_ends_partial). C04_twice_false: GetEdges can yield one edge twice."
  },
  {
   "property": "C05",
   "status": "proved",
   "theorems": [
    "LPG.C05",
    "LPG.C05_once"
   ],
   "note": "All histories."
  },
  {
   "property": "C06",
   "status": "proved",
   "theorems": [
    "LPG.C06_label",
    "LPG.C06_any"
   ],
   "note": "All histories, including any number of relabelings."
  },
  {
   "property": "C07",
   "status": "partial",
   "theorems": [
    "LPG.C07_partial",
    "LPG.C07_false",
    "LPG.C07_filed",
    "LPG.C07_iff",
    "LPG.C07_stale"
   ],
   "note": "False after SetLabel (C07_false). Proved: for histories that remove no edge while it is filed under a label it no longer has, GetEdgesWithAnyLabel yields exactly the live edges filed under one of the labels (C07_filed; an edge is filed under the label it has when it is created or, for the only edge of a graph, when the next edge is created), so C07 holds exactly if every live edge has the label it is filed under (C07_iff); SetLabel to another label loses the edge (C07_stale)."
  },
  {
   "property": "C08",
   "status": "proved",
   "theorems": [
    "LPG.C08_no_dangling",
    "LPG.C08_listed",
    "LPG.C08_detachRemove",
    "LPG.C08_detach",
    "LPG.C08_removeEdge"
   ],
   "note": "All histories."
  },
  {
   "property": "C09",
   "status": "proved",
   "theorems": [
    "LPG.C09",
    "LPG.C09_write"
   ],
   "note": "Refinement to the abstract graph for all histories, and the exact effect of each operation on all attributes for arbitrary states."
  },
  {
   "property": "C10",
   "status": "proved",
   "theorems": [
    "LPG.C10"
   ],
   "note": "All histories, including label sets emptied and set again; every non-empty label set in any order."
  },
  {
   "property": "C11",
   "status": "partial",
   "theorems": [
    "LPG.C11_partial",
    "LPG.C11_panics",
    "LPG.C11_false"
   ],
   "note": "The property is false of the code: the lookup dereferences a nil set and panics for the empty label set in every state. Proved: it returns exactly when the set is not empty."
  },
  {
   "property": "C12",
   "status": "partial",
   "theorems": [
    "LPG.C12_indexed_partial",
    "LPG.C12_partial",
    "LPG.C12_false",
    "LPG.C12_created",
    "LPG.C12_lost",
    "LPG.C12_tracks",
    "LPG.C12_sound",
    "LPG.C12_exact"
   ],
   "note": "False when the node list is broken (C01) at the time of the scan. Proved: hash and btree indexes are exact for every history in which indexes are created while GetNodes is right, whatever happens later; unindexed lookup whenever GetNodes is right; in every history a new index has exactly the nodes GetNodes yields (C12_created), so lost nodes are in no later index (C12_lost). For every history: what an index has is exactly the nodes it started with, followed through every later change (C12_tracks), and a lookup yields no node twice and only nodes with the property (C12_sound). What a lookup yields after every history, for every key, is described by a small machine over the operations (C12_exact)."
  },
  {
   "property": "C13",
   "status": "partial",
   "theorems": [
    "LPG.C13_indexed_partial",
    "LPG.C13_scan_partial",
    "LPG.C13_false",
    "LPG.C13_left",
    "LPG.C13_iff",
    "LPG.C13_tracks",
    "LPG.C13_btree_nodup"
   ],
   "note": "False of the code: Edge.Remove leaves the edge in the property index. Proved for every history, for indexed keys: exactly how often each edge is yielded, from the operations since the index was created and what GetEdges yielded then (C13_tracks); if that was right, the lookup yields the live edges with the property and every edge that had it when Edge.Remove removed it (C13_left), so it is right exactly if there is no such edge (C13_iff). Unindexed keys whenever GetEdges is right. A hash index made over a damaged edge list can list an edge twice for ever, also after its property was removed."
  },
  {
   "property": "C14",
   "status": "partial",
   "theorems": [
    "LPG.C14_partial",
    "LPG.C14_unindexed_partial",
    "LPG.C14_false",
    "LPG.C14_false_native",
    "LPG.C14_sound",
    "LPG.C14_exact",
    "LPG.C14_lookup_partial"
   ],
   "note": "Proved for all histories and non-empty label sets when the asked properties have no index, and with indexes created while GetNodes is right, for values that are not wrappers of wrappers. The excluded cases are false (C14_false, C14_false_native). In every history and for all values, what FindNodes yields for a non-empty label set has the labels and properties and comes once (C14_sound). C14_exact: the exact answer after every history, in terms of what the lookups of the asked properties yield (C12_exact); so it is right whenever these lookups are (C14_lookup_partial)."
  },
  {
   "property": "C15",
   "status": "partial",
   "theorems": [
    "LPG.C15_partial",
    "LPG.C15_panics",
    "LPG.C15_false"
   ],
   "note": "False of the code: FindNodes with properties but no labels panics in every state (nil iterator). Proved: it returns exactly for no properties, and then lists all nodes."
  },
  {
   "property": "C16",
   "status": "partial",
   "theorems": [
    "LPG.C16_partial",
    "LPG.C16_exact",
    "LPG.C16_unfiltered",
    "LPG.C16_panics",
    "LPG.C16_false"
   ],
   "note": "False of the code: without an indexed property a graph with two or more edges gets all edges back, unfiltered (C16_unfiltered, proved in general); no labels with properties panics. Proved exact when an asked property has an index, or the graph has at most one edge. For every history and every non-empty set of labels C16_exact says which of the three iterators is used and what is yielded: the matching ones of the label lookup (NumEdges 0 or 1), the matching ones of the edges the index has (removed edges among them), or all that GetEdges yields."
  },
  {
   "property": "C17",
   "status": "proved",
   "theorems": [
    "LPG.C17_node",
    "LPG.C17_edge"
   ],
   "note": "Exact characterisation of both filter functions, including the recovered panic of the comparison."
  },
  {
   "property": "C18",
   "status": "proved",
   "theorems": [
    "LPG.C18_range",
    "LPG.C18_antisymmetric",
    "LPG.C18_reflexive",
    "LPG.C18_reflexive_supported",
    "LPG.C18_transitive",
    "LPG.C18_comparability_not_transitive",
    "LPG.C18_native",
    "LPG.C18_int",
    "LPG.C18_str",
    "LPG.C18_slices",
    "LPG.C18_incomparable",
    "LPG.C18_extends",
    "LPG.C18_acyclic"
   ],
   "note": "Order laws for all nested values on which the comparison is defined. The comparison is the restriction of one total preorder to the comparable pairs."
  },
  {
   "property": "C19",
   "status": "proved",
   "theorems": [
    "LPG.C19_sets",
    "LPG.C19_queries",
    "LPG.C19_sorted"
   ],
   "note": "Maps are heap objects shared by Clone, StringSet is a pointer to a map; every program over any number of sets refines independent finite sets."
  },
  {
   "property": "C20",
   "status": "proved",
   "theorems": [
    "LPG.C20",
    "LPG.OSet.mem_run_append",
    "LPG.C20_get"
   ],
   "note": "Cell-level fastSet (linked list + map) refined to an insertion-ordered list, every sequence of operations on nodes of one graph."
  },
  {
   "property": "C21",
   "status": "partial",
   "theorems": [
    "LPG.C21_partial",
    "LPG.C21_false",
    "LPG.C21_false_collision"
   ],
   "note": "False of the code: sets are keyed by id only, so nodes of different graphs collide. Proved as long as the nodes used have pairwise different ids."
  },
  {
   "property": "C22",
   "status": "proved",
   "theorems": [
    "LPG.C22_legal",
    "LPG.C22_held",
    "LPG.C22_last",
    "LPG.C22_growth",
    "LPG.C22_free_length"
   ],
   "note": "Table with its free list, all call sequences that free held references only."
  },
  {
   "property": "C23",
   "status": "partial",
   "theorems": [
    "LPG.C23_slice",
    "LPG.C23_filter",
    "LPG.C23_multi",
    "LPG.C23_unique",
    "LPG.C23_proc",
    "LPG.C23_nodeEdges",
    "LPG.C23_nodeEdgesWithLabel",
    "LPG.C23_nodeEdgesWithAnyLabel_partial",
    "LPG.C23_getNodes",
    "LPG.C23_getNodes_partial",
    "LPG.C23_getEdges_partial",
    "LPG.C23_getEdgesWithAnyLabel_partial",
    "LPG.C23_getNodesWithAllLabels",
    "LPG.C23_getNodesWithProperty_partial",
    "LPG.C23_getEdgesWithProperty_partial",
    "LPG.C23_false",
    "LPG.C23_false_witness",
    "LPG.C23_getNodes_false",
    "LPG.C23_find_partial"
   ],
   "note": "Iterators as state machines; the combinator laws hold for every underlying iterator. MaxSize is false of the code for GetEdgesWithAnyLabel(AnyEdge) (adds -1s) and after histories that break GetNodes/GetEdges; proved otherwise."
  },
  {
   "property": "C24",
   "status": "partial",
   "theorems": [
    "LPG.C24_counts",
    "LPG.C24_nodes",
    "LPG.C24_edges",
    "LPG.C24_edges_negative",
    "LPG.C24_steps",
    "LPG.C24_append",
    "LPG.C24_append_nil",
    "LPG.C24_append_empty",
    "LPG.C24_connected_partial",
    "LPG.C24_false"
   ],
   "note": "Counts, GetNode, GetEdge, First and Last for every path object a program can get hold of; Append panics exactly on disconnected steps when the path is not empty. False: Append on the empty path takes any list of steps unchecked (C24_false), so connectedness needs the condition of C24_connected_partial."
  },
  {
   "property": "C25",
   "status": "partial",
   "theorems": [
    "LPG.C25_partial",
    "LPG.C25_false"
   ],
   "note": "False in five ways (C25_false): single-node receivers and arguments are dropped or not checked and the argument is changed. C25_partial: right when the argument is not a single node and a single-node receiver gets a path beginning there."
  },
  {
   "property": "C26",
   "status": "partial",
   "theorems": [
    "LPG.C26_slice_partial",
    "LPG.C26_slice_clamp",
    "LPG.C26_slice_false",
    "LPG.C26_hasPrefix_partial",
    "LPG.C26_hasPrefix_false",
    "LPG.C26_hasPrefixPath"
   ],
   "note": "HasPrefixPath is exact for all paths. Slice(s,s+1) before the last node gives the empty path (C26_slice_false); HasPrefix is false for the empty list on paths without edges (C26_hasPrefix_false)."
  },
  {
   "property": "C27",
   "status": "partial",
   "theorems": [
    "LPG.C27_partial",
    "LPG.C27_removes_edge",
    "LPG.C27_false",
    "LPG.C27_pop"
   ],
   "note": "False: RemoveLast and RemoveFirst delete the edge from the graph, a one-edge path becomes empty, PopFromPath does not move the cursor. C27_partial: which steps and nodes remain; C27_removes_edge: the effect on the graph is that of Edge.Remove. C27_pop: what PopFromPath does to the path, the graph and the cursor."
  },
  {
   "property": "C28",
   "status": "proved",
   "theorems": [
    "LPG.C28",
    "LPG.C28_all",
    "LPG.C28_stop",
    "LPG.C28_connected"
   ],
   "note": "For every graph reached by a valid history, start node, first leg of live edges, filter, direction and bounds: the search ends without panic and calls the accumulator on exactly the edge-distinct trails within the bounds, each once, in an order that does not depend on the accumulator, until it returns false. The edge filter is a function (it has no state) and the callbacks do not change the graph."
  },
  {
   "property": "C29",
   "status": "partial",
   "theorems": [
    "LPG.C29_partial",
    "LPG.C29_anyStart_partial",
    "LPG.C29_false_zero",
    "LPG.C29_false_bound",
    "LPG.C30_bindings_partial",
    "LPG.C29_false_ghost"
   ],
   "note": "Every report of Pattern.Run is for a match (labels, properties, direction, length bounds, bound node names), for all patterns with fixed and variable length items, all symbol tables binding names to sets of live nodes, and all starts that are node items or directed one-edge items. False in general: an edge start ignores Min/Max 0, and names bound to edges are not enforced (both proved). C30_bindings_partial (see C30) says exactly what is reported if names of edge items are bound: they are looked at only where the search starts. What the search starts from must be intact: only what the chosen start item uses (the node list for a node item without labels and bound name, the edge list for an edge item, an index if one is asked; see C01, C04, C12, C13). Otherwise false: a removed node that GetNodes yields is reported (C29_false_ghost)."
  },
  {
   "property": "C30",
   "status": "partial",
   "theorems": [
    "LPG.C30_partial",
    "LPG.C30_all_partial",
    "LPG.C30_oneWay_partial",
    "LPG.C30_trailFirst_partial",
    "LPG.C30_false_undirected",
    "LPG.C30_false_loop",
    "LPG.C30_panics",
    "LPG.C30_panics_iff",
    "LPG.C30_false_trail",
    "LPG.C30_false_left",
    "LPG.C30_start_bounds",
    "LPG.C30_directed_start",
    "LPG.C30_undirected_start",
    "LPG.C30_every_start_partial",
    "LPG.C30_bindings_partial",
    "LPG.C30_listed_partial",
    "LPG.C30_labelled_partial",
    "LPG.C30_false_lost"
   ],
   "note": "Every match that respects the names is reported exactly once, under the conditions of C29 and without loops at undirected one-edge items; with such loops exactly 2^k times, for k items with loops (C32_exact_partial, C30_every_start_partial). For patterns of one-edge items from left to right C30_oneWay_partial holds for every planner choice. Patterns that begin with a trail: C30_trailFirst_partial, also for every planner choice. False in general: loops are reported twice at undirected items, a search starting at an undirected edge item panics (both proved). C30_panics_iff gives the exact condition under which a search from a right start panics: some match has a trail of several edges between the first edge item and the start whose last edge does not begin at the node before the trail, or the search starts at an edge item from right to left next to other edge items and the edge is not a loop; both are shown to occur (C30_false_trail, C30_false_left). C30_every_start_partial covers every item at which the planner may start: searches from an undirected edge item panic exactly if an edge satisfies the item and report nothing otherwise, and searches from any other edge item report the matches of the pattern in which that item is for one edge. C30_bindings_partial extends this to names of edge items that are bound to anything or used twice: the reports are exactly the matches, as if these names were free, that begin with an item of the start, which are all that satisfy the item or the edges that its name is bound to. C30_listed_partial needs no such condition: after every history in which every listed node is in the graph, a search from a node item reports exactly the matches that begin with one of the nodes it was given, among them every fitting node that the graph lists; C30_labelled_partial needs nothing of the history at all, for starts with labels or a bound name and no index. A node that GetNodes does not yield is missed (C30_false_lost)."
  },
  {
   "property": "C31",
   "status": "partial",
   "theorems": [
    "LPG.C31_partial",
    "LPG.C31_counts_partial",
    "LPG.C31_histories_partial",
    "LPG.C31_histories_counts_partial",
    "LPG.C31_false",
    "LPG.C31_false_names"
   ],
   "note": "Two searches of the same pattern from any two right starts report the same matches equally often, loops at undirected items included; so do two histories that lead to the same graph, with or without indexes. C31_counts_partial: if the searches return, every match that respects the names of node items is reported equally often, also in patterns with repeated names; without repeated free names of node items the reports are the same up to the order. False in general: undirected edge starts panic (C31_false), and the number of reports that do not respect a repeated name depends on the start (C31_false_names: 6 and 12 reports)."
  },
  {
   "property": "C32",
   "status": "partial",
   "theorems": [
    "LPG.C32_partial",
    "LPG.C32_anyStart_partial",
    "LPG.C32_false",
    "LPG.C32_exact_partial",
    "LPG.C32_ran_partial",
    "LPG.C32_false_trail"
   ],
   "note": "The reported path visits the matched edges in pattern order from the first to the last node, if the items before the start are one-edge items and an edge start is from left to right (C32_partial). C32_exact_partial and C32_ran_partial give the exact edges of the path for every right start: the last edge of every trail before the start, then the whole trails; the nodes at which the path begins and ends; and that it is the matched path exactly if the trails before the start are single edges and a right-to-left start edge is a loop. False otherwise: proved for an edge start from right to left and for a trail before the start."
  },
  {
   "property": "C33",
   "status": "partial",
   "theorems": [
    "LPG.C33_partial",
    "LPG.C33_bound_partial",
    "LPG.C33_false",
    "LPG.C33_edge_start_partial",
    "LPG.C30_bindings_partial",
    "LPG.C33_repeated_partial",
    "LPG.C33_pair_partial"
   ],
   "note": "Names bound by the caller: every item with the name has a value in the set, in every report. Free names used twice are not enforced after the first success (proved); all matches that respect such names are still reported (C30_partial). Names bound to edges: C33_edge_start_partial shows that the name is enforced if the search starts at the item (without labels and properties); C30_bindings_partial shows that elsewhere it is not looked at. C33_repeated_partial bounds what is reported besides: wherever a free name is used again, the values up to its first use can be continued to the second so that the name is respected, so (a)-[e]-(a) is only reported for nodes at which some trail fitting e begins and ends, and only for such trails if the search starts at the edge (C33_pair_partial)."
  },
  {
   "property": "C34",
   "status": "partial",
   "theorems": [
    "LPG.C34_sources_sinks_partial",
    "LPG.C34_sources_false",
    "LPG.C34_edgesBetween",
    "LPG.C34_nextNodesWith",
    "LPG.C34_prevNodesWith",
    "LPG.C34_listing"
   ],
   "note": "EdgesBetweenNodes, NextNodesWith and PrevNodesWith exact for all histories. Sources and Sinks inherit the failure of GetNodes (C34_sources_false) and are exact under the condition of C01_iff (ListOk). C34_listing: what they yield after every history."
  },
  {
   "property": "C35",
   "status": "partial",
   "theorems": [
    "LPG.C35_partial",
    "LPG.C35_false",
    "LPG.C36_decides",
    "LPG.C36_listing",
    "LPG.C35_self"
   ],
   "note": "Proved for the histories after which GetNodes and NumEdges are right (ListOk: no node created after the newest one was removed, except in an empty graph; FiledOk: no edge removed while it has another label than the one it was created with). False in general: a node that GetNodes misses makes a graph not isomorphic to itself (C35_false). C36_listing: what is decided after every history; C35_self: a graph is found isomorphic to itself exactly if every edge that leaves an enumerated node leads to an enumerated node."
  },
  {
   "property": "C36",
   "status": "partial",
   "theorems": [
    "LPG.C36_partial",
    "LPG.C36_decides",
    "LPG.C36_false",
    "LPG.C36_listing"
   ],
   "note": "False in general: the node map need not be one to one, so {A,A} and {A,B} are reported isomorphic (C36_false). C36_decides characterises exactly what is decided, and that the search ends without panic; C36_partial proves the full property for node equivalences that give every node at most one partner and edge equivalences that tell parallel edges apart. C36_listing: the same for all histories, in terms of what GetNodes and NumEdges yield."
  },
  {
   "property": "C37",
   "status": "partial",
   "theorems": [
    "LPG.C37_partial",
    "LPG.C37_listed",
    "LPG.C37_stuck",
    "LPG.C37_returns",
    "LPG.C37_self",
    "LPG.C37_false",
    "LPG.C37_live",
    "LPG.C79_self"
   ],
   "note": "For every program over several graphs. C37_listed: between any two graphs, spoiled by the defects of C01/C04 or not, CopyGraph copies exactly what GetNodes of the source lists and the listed edges between copied nodes, the enumeration of the target is the one of C01 with the new nodes, and all queries of all other graphs answer as before; if the source cannot list its edges the call does not return (C37_stuck). C37_partial: if the source is not spoiled, this is one faithful copy of every node and edge; C37_returns says when the call returns. The property as stated is false: a node GetNodes has lost is not copied (C37_false), and copying a graph with two or more nodes to itself never ends (C37_self). C37_live: the loop over the edges, with its iterator reading the lists while the copies are made, does the same as the loop over a list made before (which the other theorems are about), also when it does not end. C79_self: C37_self without the condition on indexes."
  },
  {
   "property": "C38",
   "status": "partial",
   "theorems": [
    "LPG.C38_copies",
    "LPG.C38_returns_partial",
    "LPG.C38_false",
    "LPG.C38_given",
    "LPG.C38_given_returns_partial",
    "LPG.C38_several",
    "LPG.C38_live",
    "LPG.C38_live_several"
   ],
   "note": "CopySubgraph with an empty map copies exactly the reachable nodes and the edges leaving them, each once, on cyclic graphs too and also into the same graph, for all graphs (C38_copies). It returns when the values given to properties with an index in the target suit the index and the target can list its edges (C38_returns_partial); without the latter it may panic because of the defect of C04 (C38_false). C38_given: any number of calls with one map, which at first may pair some nodes with nodes of the target (these are not followed and stand for themselves): what is copied then; C38_several is the case of a map that is empty at first. The map may not name nodes that are not live nodes of the target. C38_live, C38_live_several: the recursive loops with their iterators do the same as with lists of the edges made before each loop, for any target and any map."
  },
  {
   "property": "C39",
   "status": "partial",
   "theorems": [
    "LPG.C39_partial",
    "LPG.C39_listing_partial",
    "LPG.InverseOn.default",
    "LPG.C39_false",
    "LPG.C39_false_redirected",
    "LPG.C39_false_empty"
   ],
   "note": "Total correctness of Encode followed by Decode into a new graph: the result is a copy (same labels, properties, edges with multiplicity), for both edge modes and any order of the nodes, if the property functions are inverse on the graph's properties, after every history that does not spoil the node list (C01) nor, with separate edges, the edge list (C04). False in general: nodes lost by C01 defect (edges redirected to node 0), empty property keys, empty graph with separate edges. C39_listing_partial: after every history (the edges written separately only if C04's defect did not occur) the result is a copy of the enumerated nodes, removed ones included, in which every edge to a lost node leads to the first one. encoding/json is modelled at the level of tokens."
  },
  {
   "property": "C40",
   "status": "partial",
   "theorems": [
    "LPG.C40_partial",
    "LPG.C40_false"
   ],
   "note": "Every successful Encode writes the text of a JSON value, in every state of the graph and for any node order, except with MarshalEdgesSeparately on a graph without nodes, where it never does."
  },
  {
   "property": "C41",
   "status": "partial",
   "theorems": [
    "LPG.C41_partial",
    "LPG.C41_returns",
    "LPG.decode_rounds",
    "LPG.C41_skips",
    "LPG.C41_skipped",
    "LPG.C41_nested",
    "LPG.C41_dropped",
    "LPG.C41_swallowed",
    "LPG.C41_false"
   ],
   "note": "No error exactly if all properties unmarshal and all references exist, then exactly the nodes and edges of the document were added; otherwise the error names a dangling reference or a property, and the graph has the first nodes of the document and some of its edges. Also for graphs that have lost nodes; enumerations then show the new nodes as C01 says (the graph must be able to enumerate its edges for the call to return). For unknown keys with values through which Decode counts right (C41_skips: e.g. all scalars and non-empty lists of scalars); such keys make no difference anywhere (C41_skipped). False for other values of unknown keys, in general and not only in examples: after an object with one member the rest of the document is dropped without an error (C41_dropped), contents of the object may be loaded as if they were outside (C41_nested), and members may be swallowed (C41_swallowed)."
  },
  {
   "property": "C42",
   "status": "proved",
   "theorems": [
    "LPG.C42_foreign",
    "LPG.C42_foreign_only",
    "LPG.C42_ends",
    "LPG.C42_own",
    "LPG.C42_isolated",
    "LPG.C42_isolated_run"
   ],
   "note": "Any number of graphs on one shared heap (Model/World.lean); every pointer of a node or edge may in principle lead anywhere. For all programs: NewEdge with a node of another graph panics and leaves the state as it is, edges connect nodes of their own graph, and a call acting on one graph changes no answer of any query of another graph. Addresses come from one counter for all graphs (in Go ids are per graph)."
  },
  {
   "property": "C43",
   "status": "partial",
   "theorems": [
    "LPG.C43_false_witness",
    "LPG.C43_false",
    "LPG.C43_never_rejects"
   ],
   "note": "The property is false: FastNewEdge only compares node.graph, which DetachAndRemove does not clear. C43_false: concrete witness. C43_never_rejects: after every history, unless GetEdges cannot be run (then NewEdge panics whatever the nodes are, C49_operation), NewEdge accepts every pair of nodes, live or removed, and counts the edge."
  },
  {
   "property": "C44",
   "status": "partial",
   "theorems": [
    "LPG.C44_nodes_partial",
    "LPG.C44_nodesWith_partial",
    "LPG.C44_unset",
    "LPG.C44_false",
    "LPG.C44_push",
    "LPG.C44_push_moves",
    "LPG.C44_edges",
    "LPG.C44_edgesWith",
    "LPG.C44_neighbours",
    "LPG.C44_neighboursWith"
   ],
   "note": "Exact for OutgoingEdge and IncomingEdge, for all histories, with the iterator objects; so also for Forward, Backward, NextNodes, PrevNodes and their label versions. False for AnyEdge (C44_false): the targets of incoming edges are yielded instead of their sources; the theorems say exactly what is yielded. PushToPath for all push sequences."
  },
  {
   "property": "C45",
   "status": "partial",
   "theorems": [
    "LPG.C45_partial",
    "LPG.C45_enumerated",
    "LPG.C45_text",
    "LPG.C45_false"
   ],
   "note": "For every renderer, every writer and every point of failure. Proved for the histories after which the enumerations of nodes (C01) and edges (C04) are right, and in all histories relative to what GetNodes and GetEdges enumerate. False in general (C45_false): nodes lost by C01 are not rendered. C45_text is the exact text of the default renderer."
  },
  {
   "property": "C46",
   "status": "partial",
   "theorems": [
    "LPG.C46_partial",
    "LPG.C46_false",
    "LPG.C46_false_removed",
    "LPG.C46_isEmpty_partial",
    "LPG.C46_isEmpty_false",
    "LPG.C46_left",
    "LPG.C46_safe_partial",
    "LPG.C46_iff",
    "LPG.C46_isEmpty_left"
   ],
   "note": "False of the code after labels are replaced by the empty set (node listed twice, removed node still listed). For every history: every node is listed, and how often a node is listed follows from the labels that were cleared and not given again, exactly for nodes with at most one label (C46_left). So it is right if no such labels are left (C46_safe_partial), and only then if no node has several labels (C46_iff). IsEmpty ignores nodes without labels; exactly: C46_isEmpty_left."
  },
  {
   "property": "C47",
   "status": "proved",
   "theorems": [
    "LPG.C47_copies",
    "LPG.C47_copies_back",
    "LPG.C47_shares",
    "LPG.C47_shares_nil"
   ],
   "note": "Property maps as heap objects with pointers held by the caller and by nodes/edges; all programs over them."
  },
  {
   "property": "C48",
   "status": "proved",
   "theorems": [
    "LPG.C48_forEachNode",
    "LPG.C48_live_partial",
    "LPG.C48_forEachProperty",
    "LPG.C48_listing"
   ],
   "note": "Relative to the order of GetNodes, as stated; C48_live_partial and C48_listing add what GetNodes lists (see C01)."
  },
  {
   "property": "C49",
   "status": "partial",
   "theorems": [
    "LPG.C49_partial",
    "LPG.C49_noindex_partial",
    "LPG.C49_false",
    "LPG.C49_operation",
    "LPG.C49_exact"
   ],
   "note": "False of the code: after SetLabel and Remove, NewEdge on live nodes can panic (C49_false). C49_exact: for every history whose values suit the indexes, it does not panic if and only if GetEdges can be run whenever an edge or the first edge index on a property is created; C49_operation: the same for one operation, after every history, and GetEdges cannot be run only when NumEdges is 1. C49_partial: histories in which removed edges have the label they are filed under (FiledOk) do not panic."
  },
  {
   "property": "C50",
   "status": "proved",
   "theorems": [
    "LPG.C50",
    "LPG.C50_edges",
    "LPG.C50_partial"
   ],
   "note": "Every valid history, also those that damage the list of nodes; nodes and edges. Values in one tree that are not comparable with each other (empty slices of different types) are not ordered by the claim; C50_partial: when all indexed values are comparable, each comparison is defined."
  },
  {
   "property": "C51",
   "status": "partial",
   "theorems": [
    "LPG.C51_partial",
    "LPG.C51_always",
    "LPG.C51_listing",
    "LPG.C51_kept",
    "LPG.C51_noForeign",
    "LPG.C51_returns_partial",
    "LPG.C51_operation",
    "LPG.C51_returns",
    "LPG.C51_false"
   ],
   "note": "All interleavings over any number of graphs. Enumerations of edges and counts of a graph need the conditions of C01/C04 for this graph only (C51_partial); labels, properties, ends and adjacency of live nodes and edges need no condition (C51_always), nor do the attributes of removed ones (C51_kept) and the enumeration of nodes, which is the one that C01 describes (C51_listing). C51_returns_partial: such programs return from all calls, if no graph is spoiled and indexed values suit their indexes. C51_returns: exactly when they return, for values that suit the indexes: GetEdges of the graph can be run whenever a call uses all edges of this graph; C51_operation: the same for one call after every program. C51_false: without the conditions of C01/C04 the property fails."
  },
  {
   "property": "C52",
   "status": "partial",
   "theorems": [
    "LPG.C52_partial",
    "LPG.C52_count_partial",
    "LPG.C52_alone_partial",
    "LPG.C52_argument_partial",
    "LPG.C52_false",
    "LPG.C52_false_write"
   ],
   "note": "Path objects on a heap with Go slices (arrays, offset, length, capacity, any growth policy) have the values computed by the value semantics of Model/Path, for all programs in which the caller does not use a slice any more after giving it to NewPathFromElements. Without that condition it is false: two paths made from one slice with spare capacity overwrite each other's appended elements (proved)."
  },
  {
   "property": "C53",
   "status": "partial",
   "theorems": [
    "LPG.C53_partial",
    "LPG.C53_oneWay_partial",
    "LPG.C53_exact_partial",
    "LPG.C53_false",
    "LPG.C53_names",
    "LPG.C53_symbol",
    "LPG.C53_symbol_nil"
   ],
   "note": "FindNodes and GetTailNodes for searches that start at a node item or an edge item from left to right with items of one edge before the start, and for all patterns of single edges from left to right. False of the code for edge starts from right to left (C53_false), through C32. Names and symbols in full. C53_exact_partial: for every start and every binding, if no free name is used by two node items: when the calls panic, and which nodes they return otherwise, namely the ends of the reported paths, which are the ends of the matches except for trails before the start and right-to-left edge starts at an end of the pattern."
  },
  {
   "property": "C54",
   "status": "proved",
   "theorems": [
    "LPG.C54_read",
    "LPG.C54_roundtrip"
   ],
   "note": "Texts are token lists; sets on a heap of maps as in C19."
  },
  {
   "property": "C55",
   "status": "proved",
   "theorems": [
    "LPG.C55"
   ],
   "note": "For maps that only Intern has written to (or that map strings to themselves)."
  },
  {
   "property": "C56",
   "status": "proved",
   "theorems": [
    "LPG.C56_alone",
    "LPG.C56_calls",
    "LPG.C56_explicit",
    "LPG.C56_returns",
    "LPG.C56_ids",
    "LPG.C56_valid"
   ],
   "note": "Renaming simulation: for every program (no validity condition) and every graph of it there is a history of a single graph made of the same calls, whose ids 0,1,2,... stand in increasing order for the nodes and edges of the graph, with corresponding answers to every query (node and edge enumerations, counts, label and property lookups, FindNodes/FindEdges, attributes, ends, adjacency) and the same panics of the next call. C56_calls: in programs that use live handles the calls are those written with the graph. C56_explicit gives the history of the single graph outright: the calls on it, each object by its number among the objects of the graph; C56_ids: these numbers are distinct and in order of creation. C56_returns: a program that gives to each call objects of its own graph (live or removed) returns from all calls exactly if the calls on each graph alone do. C56_valid: for live handles the calls on each graph alone use live handles too and build the same abstract graph, so every theorem about one graph applies to each of several."
  },
  {
   "property": "C57",
   "status": "partial",
   "theorems": [
    "LPG.C57_partial",
    "LPG.C57_listed",
    "LPG.C57_survivors_partial",
    "LPG.C57_drain_partial",
    "LPG.C57_endless",
    "LPG.C57_stale",
    "LPG.C57_false",
    "LPG.C57_false_stale"
   ],
   "note": "Proved for all histories and all interleavings (the calls of the body may depend on anything). Whatever the history and the body, every node that GetNodes would have listed when the loop began and that still exists is visited, once and in order (C57_listed, no condition); if the list was right (C01_iff) these are all survivors (C57_survivors_partial). A body that removes only visited nodes, while the list is right, sees every node once, in order, alive (C57_partial). The loop that removes every node returns and empties the graph (C57_drain_partial). Exact limits: a body that removes the node that comes next is still led to it, wherever the loop is (C57_stale), and a loop over two or more nodes that creates one in each round never ends (C57_endless). The comments of the library call such loops undefined."
  },
  {
   "property": "C58",
   "status": "partial",
   "theorems": [
    "LPG.C58_partial",
    "LPG.C58_ends_partial",
    "LPG.C58_remove_partial",
    "LPG.C58_both_partial",
    "LPG.C58_false_ahead",
    "LPG.C58_false_skip",
    "LPG.C58_false_relabel",
    "LPG.C58_false_all",
    "LPG.C58_false_self",
    "LPG.C58_model"
   ],
   "note": "Proved for all histories and all interleavings. For the edges of a node in one direction (GetEdges, GetEdgesWithLabel, GetEdgesWithAnyLabel) without conditions on the history; for those of the graph if no edge filed under an old label was or is removed, and with labels if there is none when the loop begins and none is relabelled in the loop (C04, C05). Both directions at once: if the node has no edge to itself (C58_both_partial). The loop that removes every edge ends and removes exactly the edges asked for (C58_remove_partial). Limits, with concrete programs: removing the edge that comes next makes the loop visit a removed edge and skip others; giving a visited edge another label that is sought makes it appear twice; an edge from a node to itself is visited again after its removal by a loop over AnyEdge. C58_model: the edge maps with references agree with the value model used elsewhere."
  },
  {
   "property": "C59",
   "status": "partial",
   "theorems": [
    "LPG.C59_model",
    "LPG.C59_partial",
    "LPG.C59_relabel",
    "LPG.C59_remove_partial",
    "LPG.C59_false_ahead",
    "LPG.C59_false_removed",
    "LPG.C59_false_unlabel",
    "LPG.C59_false_again"
   ],
   "note": "All histories before the loop and all bodies that touch only visited nodes in the stated way; C59_relabel needs no condition. False for bodies that remove or unlabel nodes that come next, or give a label back to a visited node (concrete witnesses). The empty set of labels panics (C11)."
  },
  {
   "property": "C60",
   "status": "partial",
   "theorems": [
    "LPG.C60_partial",
    "LPG.C60_returns",
    "LPG.C60_search_partial",
    "LPG.C60_valid",
    "LPG.C60_remove_again",
    "LPG.C60_label",
    "LPG.C60_index",
    "LPG.C60_edge_again",
    "LPG.C60_false",
    "LPG.C60_false_edge_again",
    "LPG.C60_false_node_again",
    "LPG.C60_false_set_label",
    "LPG.C60_false_new_edge"
   ],
   "note": "All histories mixing calls on live objects with harmless calls on removed ones; no condition on the live part except for the searches that scan (C60_search_partial). The other calls on removed objects are shown to break the graph, four of them for all histories (C60_remove_again, C60_label, C60_index, C60_edge_again)."
  },
  {
   "property": "C61",
   "status": "partial",
   "theorems": [
    "LPG.C61_nodes_partial",
    "LPG.C61_edges_partial",
    "LPG.C61_forever",
    "LPG.C61_edges_forever",
    "LPG.C61_unset",
    "LPG.C61_remove_partial",
    "LPG.C61_edges_unset",
    "LPG.C61_edges_remove",
    "LPG.C61_scan_partial",
    "LPG.C61_scan_survivors_partial",
    "LPG.C61_scan_set_partial",
    "LPG.C61_edge_scan_partial",
    "LPG.C61_edge_scan_set_partial",
    "LPG.C61_edge_scan_remove_partial",
    "LPG.C61_edge_scan_false",
    "LPG.C61_edge_scan_false_relabel",
    "LPG.C61_false_ahead",
    "LPG.C61_false_removed",
    "LPG.C61_false_set",
    "LPG.C61_false_again",
    "LPG.C61_false_edge"
   ],
   "note": "All loop bodies that touch the property only in the stated way, after all histories that leave the index right (C12, C13). False for bodies that set the property of a visited node or remove a node that comes next (witnesses); the update loop over a hash index never ends (C61_forever, for all histories). Without an index, loops over nodes and over edges are covered too (C61_scan_*, C61_edge_scan_*). Not covered: btree indexes."
  },
  {
   "property": "C62",
   "status": "partial",
   "theorems": [
    "LPG.C62_partial",
    "LPG.C62_truncated_partial",
    "LPG.C62_type",
    "LPG.C62_documents",
    "LPG.C62_odd",
    "LPG.C62_exact_partial",
    "LPG.C62_any",
    "LPG.C62_returns_partial",
    "LPG.C62_cut",
    "LPG.C62_false"
   ],
   "note": "For every graph and every text that does not come to an unknown key with a value that Decode does not skip properly (C62_odd says which documents have none). The state after any input is described for every graph (C62_any); the exact characterisation and that the call returns (C62_exact_partial, C62_returns_partial) need that the graph can enumerate its edges (C04). False with such a key: an incomplete object is accepted, for all documents of that form (C62_cut). What a field given several times means is part of the statement."
  },
  {
   "property": "C63",
   "status": "partial",
   "theorems": [
    "LPG.C63_none",
    "LPG.C63_btree",
    "LPG.C63_btree_edges",
    "LPG.C63_hash",
    "LPG.C63_hash_edges",
    "LPG.C63_hash_edges_false",
    "LPG.C63_hash_edges_partial",
    "LPG.C63_returns",
    "LPG.C63_returns_edges",
    "LPG.C63_hash_edges_tracks",
    "LPG.C63_btree_edges_tracks"
   ],
   "note": "Proved after every history for btree indexes of nodes and edges and hash indexes of nodes. Hash indexes of edges: in every history only edges with the value are found, each once, with the right size (C63_hash_edges). That all of them are found is false of the code if the index was created over a damaged edge list (C63_hash_edges_false) and proved otherwise (C63_hash_edges_partial). C63_returns, C63_returns_edges: when the lookup does not panic. C63_hash_edges_tracks, C63_btree_edges_tracks: what is found in an index of edges in every history, from the operations since its creation."
  },
  {
   "property": "C64",
   "status": "partial",
   "theorems": [
    "LPG.C64_calls",
    "LPG.C64_stuck",
    "LPG.C64_calls_partial",
    "LPG.C64_picked_partial",
    "LPG.C64_filter",
    "LPG.C64_filter_partial",
    "LPG.copyGraph_eq",
    "LPG.C64_false",
    "LPG.C64_live",
    "LPG.C64_filter_live"
   ],
   "note": "For every pair of functions that leave the source as it is. C64_calls and C64_filter hold after all histories, in terms of what GetNodes and GetEdges of the source list; the partial theorems say that these are the nodes and edges of the graph, after histories that do not spoil the node list (C01) or the edge list (C04). C64_filter is the case of functions that clone into another graph of the program. copyGraph_eq: CopyGraph is the case of functions that choose everything. C64_false: without the condition of C01 the property fails. C64_live, C64_filter_live: the same for the loop with its iterator, which reads the lists of edges while the functions run."
  },
  {
   "property": "C65",
   "status": "partial",
   "theorems": [
    "LPG.C65",
    "LPG.C65_prefix",
    "LPG.C65_returns_partial",
    "LPG.C65_returns",
    "LPG.C65_nil",
    "LPG.C65_false"
   ],
   "note": "C65 and C65_prefix hold for every state in which the iterations of Encode end, every writer and every codec; the number of bytes that Write reports is not looked at. C65_returns: after every history, also those that spoil the lists, Encode returns exactly unless the edges are written separately and GetEdges cannot be run; C65_returns_partial: this is not so if the history does not spoil the edge list (C04) or NumEdges is not 1. In that case (C65_false) Encode meets a nil edge: C65_nil says that it has then written everything before the edges, and panics unless the writer or a property had an error before. A Write that changes the graph or panics is not described."
  },
  {
   "property": "C66",
   "status": "proved",
   "theorems": [
    "LPG.C66_node",
    "LPG.C66_edge",
    "LPG.C66_path",
    "LPG.C66_set",
    "LPG.C66_labels",
    "LPG.C66_labels_false",
    "LPG.C66_single"
   ],
   "note": "The text of a value (%v) and the test whether a value is a node or an edge are arbitrary functions, strings are lists of characters, IsSpace is arbitrary except that the space is one and parentheses and e are not. C66_labels_false: labels with colons can be confused. C66_single: a path of one node has the empty text. Values that contain the node itself inside a slice or map, for which String would not end, are not considered."
  },
  {
   "property": "C67",
   "status": "partial",
   "theorems": [
    "LPG.C67_first",
    "LPG.C67_search",
    "LPG.C67_resumes",
    "LPG.C67_spent",
    "LPG.C67_drained",
    "LPG.C67_false",
    "LPG.C67_symbols",
    "LPG.C67_symbols_false"
   ],
   "note": "Fails (C67_false): the iterator of the start is used up by the first run. What holds for all graphs, patterns, symbols and numbers of runs: the first run is the search (C67_first, C67_search); a later run with the same symbols returns exactly what a new plan would for the candidates of the start that are left (C67_resumes); after a run without an error every run reports nothing and returns no error, for every graph and all symbols (C67_spent); each run that reports or fails uses up a candidate (C67_drained). C67_symbols: later runs with any other symbols; a node start stays filtered by the symbols of the first run that got past its name, and the own symbols of a later run are not looked at for it (C67_symbols_false). Not covered: changes of the graph between two runs that change what the iterator of the start has left."
  },
  {
   "property": "C68",
   "status": "proved",
   "theorems": [
    "LPG.C68",
    "LPG.C68_history",
    "LPG.C68_step",
    "LPG.C68_returns",
    "LPG.C68_nodes",
    "LPG.C68_node",
    "LPG.C68_edge",
    "LPG.C68_example",
    "LPG.C68_unchanged_false"
   ],
   "note": "Reached s ops: a program has reached s, and what it did amounts to the calls ops; C68 extends this by every call, C68_history says that ops is a valid history that leads to the same graph without indexes, so the other properties that do not speak of indexes apply (C68_nodes, C68_node, C68_edge). C68_unchanged_false: a call that panics need not leave the graph unchanged. All orders in which a call visits the properties of an object are covered (MapOrder). As elsewhere a btree index panics as soon as the value cannot be compared with one of its entries."
  },
  {
   "property": "C69",
   "status": "proved",
   "theorems": [
    "LPG.C69_node",
    "LPG.C69_edge",
    "LPG.C69_example"
   ],
   "note": "Later calls are arbitrary, also on removed nodes and edges (tryRunFrom)."
  },
  {
   "property": "C70",
   "status": "proved",
   "theorems": [
    "LPG.C70",
    "LPG.C70_hash",
    "LPG.C70_btree",
    "LPG.C70_all_false",
    "LPG.C70_live_false"
   ],
   "note": "The converse fails: a node with the property may be missing from the index (C70_all_false), and a removed node may be in it (C70_live_false). Btree indexes as in C68."
  },
  {
   "property": "C71",
   "status": "partial",
   "theorems": [
    "LPG.C71_calls",
    "LPG.C71_partial",
    "LPG.C71_false"
   ],
   "note": "C71_partial: true for every use in which no node of the map loses all its labels, with IsEmpty looking only at nodes with labels. C71_false: Replace with no new labels leaves the node under its old labels, so it is listed twice, and found again after it was removed and labelled anew; IsEmpty is true with an unlabelled node in the map. C71_calls covers all calls in any order with any arguments: where the nodes are filed (a small independent account) and what Iterator, IteratorAllLabels and IsEmpty then return."
  },
  {
   "property": "C72",
   "status": "proved",
   "theorems": [
    "LPG.C72_decode",
    "LPG.C72_decode_in",
    "LPG.C72_fresh",
    "LPG.C72_copyGraph",
    "LPG.C72_copyGraphf",
    "LPG.C72_copySubgraph",
    "LPG.C72_copyNode",
    "LPG.C72_copyEdge"
   ],
   "note": "For every call there are calls of NewNode and NewEdge on the same graph, valid after the program so far, that leave the very same graphs; so all other theorems apply after decoding and copying. C72_decode and C72_decode_in hold for any tokens, complete or not, and any outcome. C72_fresh: a graph decoded into a new one meets the conditions of C01, C04, C07, C12, C13 and of the searches. The maps given to CopySubgraph and CopyEdge lead to live nodes of the target."
  },
  {
   "property": "C73",
   "status": "partial",
   "theorems": [
    "LPG.C73_always",
    "LPG.C73_lists_partial",
    "LPG.C73_edgeLabels_partial",
    "LPG.C73_nodeProperty_partial",
    "LPG.C73_edgeProperty_partial",
    "LPG.C73_findNodes_partial",
    "LPG.C73_searches_partial",
    "LPG.C73_search_partial",
    "LPG.C73_json_partial",
    "LPG.C73_copy_partial",
    "LPG.C73_false"
   ],
   "note": "C73_always holds for all pairs of histories. The enumerations of the whole graph, lookups by property and the searches need histories that are not spoiled by C01, C04, C07 or C13; C73_false has two programs that build the same two nodes, after one of which GetNodes lists one node. C73_search_partial has the conditions of C31 on the pattern. C73_json_partial and C73_copy_partial have the conditions of C39 and C37."
  },
  {
   "property": "C74",
   "status": "proved",
   "theorems": [
    "LPG.C74_returns",
    "LPG.C74",
    "LPG.C74_history",
    "LPG.C74_histories",
    "LPG.C74_nodes",
    "LPG.C74_node",
    "LPG.C74_edge",
    "LPG.C74_forever",
    "LPG.C74_index",
    "LPG.C74_example"
   ],
   "note": "Survived relates the state of a program that recovers from every panic with the calls it amounts to. C74_returns and C74: every call has an outcome, and what it amounts to; NewEdge is lost exactly if GetEdges would yield a nil edge. C74_histories: the histories of the other properties are such programs. C74_nodes gives what GetNodes lists (C01 is false in general). C74_forever is for any later calls, also on nodes and edges that are not in the graph. The index panics are those of C68."
  },
  {
   "property": "C75",
   "status": "proved",
   "theorems": [
    "LPG.C75_nodes",
    "LPG.C75_nodes_hash",
    "LPG.C75_nodes_btree",
    "LPG.C75_edges",
    "LPG.C75_edges_btree",
    "LPG.C75_edges_hash",
    "LPG.C75_example"
   ],
   "note": "C70 for all the programs of C74, and for indexes on edges. Not every edge with the property need be in its index (C75_example, C74_index). A hash index on edges may be built over a broken list of edges, so GetEdgesWithProperty may list an edge that has lost the property (C63_hash_edges_false); the statement leaves it out."
  },
  {
   "property": "C76",
   "status": "proved",
   "theorems": [
    "LPG.C76_nodes",
    "LPG.C76_labels",
    "LPG.C76_edges",
    "LPG.C76_both",
    "LPG.C76_node_index",
    "LPG.C76_edge_index",
    "LPG.C76_node_scan",
    "LPG.C76_edge_scan",
    "LPG.C76_example"
   ],
   "note": "What such a loop visits is C57, C58, C59 and C61. Undisturbed says that the log has one entry for each call, and that the program returns exactly if its operations do. The iterators of a btree index are those of an external library and are not covered. C76_edges needs a graph that can list its edges when the iterator is made (CanOpen; when this fails: C49_exact)."
  },
  {
   "property": "C77",
   "status": "proved",
   "theorems": [
    "LPG.C77_each",
    "LPG.C77_graph",
    "LPG.C77_next",
    "LPG.C77_make",
    "LPG.C77_nodes",
    "LPG.C77_edges",
    "LPG.C77_example"
   ],
   "note": "C77_each reduces a program with many iterators to the programs with one of C57 to C61 and C76 (OneLoop), so their theorems hold for each iterator; C77_nodes and C77_edges are two of these. FState is one model of the graph with the references that the separate models of nodes, edges and labels have. The iterators of a btree index are not covered."
  },
  {
   "property": "C78",
   "status": "proved",
   "theorems": [
    "LPG.C78",
    "LPG.C78_fine",
    "LPG.C78_returns",
    "LPG.C78_same",
    "LPG.C78_kept",
    "LPG.C78_example"
   ],
   "note": "C78_same: without a panic Decode does what the model of C39 to C41 and C62 says, and that model has no result exactly if Decode panics. Calls has what each call amounts to (Spec.AmountsLost, as in C74). A property unmarshaler that panics itself is not modelled."
  },
  {
   "property": "C79",
   "status": "proved",
   "theorems": [
    "LPG.C79",
    "LPG.C79_returns",
    "LPG.C79_fine",
    "LPG.C79_sub",
    "LPG.C79_same",
    "LPG.C79_sub_same",
    "LPG.C79_self",
    "LPG.C79_example"
   ],
   "note": "Copied and CopyOf are those of C37 and C38. C79_same and C79_sub_same: the copies of C37 and C38 are those that do not panic. The histories are those of calls that returned; what later calls do is in C74 and C75 for one graph. A property function that panics itself is not modelled. C79_self: CopyGraph of a graph to itself never returns if it has two nodes or more and its lists are right."
  },
  {
   "property": "C80",
   "status": "proved",
   "theorems": [
    "LPG.C80",
    "LPG.C80_returns",
    "LPG.C80_holds",
    "LPG.C80_others",
    "LPG.C80_own",
    "LPG.C80_foreign",
    "LPG.C80_nodes",
    "LPG.C80_nodes_hash",
    "LPG.C80_nodes_btree",
    "LPG.C80_edges_btree",
    "LPG.C80_edges_hash",
    "LPG.C80_labels",
    "LPG.C80_labels_own",
    "LPG.C80_adjacent_label",
    "LPG.C80_adjacent_any",
    "LPG.C80_forever",
    "LPG.C80_histories",
    "LPG.C80_example",
    "LPG.C80_indexes_example",
    "LPG.C80_labels_example"
   ],
   "note": "SurvivedAll is Survived of C74 for several graphs. SameAnswers is that of C42. The lookups are those of C75. C80_histories: the programs of C42 that do not panic are among these programs. C80_labels, C80_adjacent_label and C80_adjacent_any are the lookups of C10 and C06 in each graph. C80_forever: a nil edge stays in its graph whatever the program does with its graphs."
  },
  {
   "property": "C81",
   "status": "proved",
   "theorems": [
    "LPG.C81",
    "LPG.C81_returns",
    "LPG.C81_fine",
    "LPG.C81_sub",
    "LPG.C81_example",
    "LPG.C81_goes_on",
    "LPG.C81_sub_goes_on"
   ],
   "note": "C79 in the worlds of C80. The programs (SurvivedAll) consist of calls and of the steps of copies; C81_goes_on and C81_sub_goes_on: CopyGraph and CopySubgraph consist of these steps. C81 and C81_fine are for two different graphs; see C79_self for a graph copied to itself."
  }
 ]
}