#!/usr/bin/env python3
"""Generates /verif/properties.jsonl (kept as a script so ids stay consistent)."""
import json, os
P = []
def p(id, title, statement, quantifier, why, anchors):
    P.append(dict(id=id, title=title, statement=statement, quantifier=quantifier,
                  why_tests_cant=why, anchors=anchors))

HIST = "every finite history of API calls (NewNode, NewEdge, SetLabels, Set/RemoveProperty, Detach, DetachAndRemove, SetLabel, Remove, Add*PropertyIndex) on live nodes/edges, of any length"
WH = "The claim ranges over unboundedly many interleavings of creations, removals and relabelings; a unit test exercises a handful."

p("C01","GetNodes enumerates exactly the live nodes",
  "After any history, iterating Graph.GetNodes() yields every node that was created and not yet removed, each exactly once, in creation order, and nothing else (in particular no removed node).",
  HIST, WH, ["graph.go:GetNodes","list.go:nodeList.add","list.go:nodeList.remove","list.go:nodeListIterator.Next"])
p("C02","NumNodes counts the live nodes",
  "After any history, Graph.NumNodes() is the number of nodes created minus the number of nodes removed.",
  HIST, WH, ["graph.go:NumNodes","list.go:nodeList.add","list.go:nodeList.remove"])
p("C03","Identifiers are unique and never reused",
  "Every node and every edge of one graph has an ID different from the ID of every other node and edge ever created in that graph, also after removals, and the ID of an object never changes.",
  HIST, WH, ["graph.go:FastNewNode","graph.go:FastNewEdge","graph.go:cloneNode","graph.go:cloneEdge","node.go:GetID","edge.go:GetID"])
p("C04","GetEdges / NumEdges account for exactly the live edges",
  "After any history, Graph.GetEdges() yields every edge created and not removed (explicitly or by detaching one of its nodes), each exactly once and nothing else, and NumEdges() is their number.",
  HIST, WH, ["graph.go:GetEdges","graph.go:NumEdges","edgemap.go:add","edgemap.go:remove","edgemap.go:iterator","edgemap.go:allEdgesItr.Next"])
p("C05","Adjacency is exact",
  "After any history, node.GetEdges(OutgoingEdge) yields exactly the live edges whose source is the node, GetEdges(IncomingEdge) exactly those whose target is the node, each once; GetEdges(AnyEdge) yields the incoming ones followed by the outgoing ones.",
  HIST, WH, ["node.go:GetEdges","graph.go:connect","graph.go:disconnect","edgemap.go","list.go:edgeList"])
p("C06","Labelled adjacency follows the current edge label",
  "After any history, node.GetEdgesWithLabel(dir,l) yields exactly the live adjacent edges in that direction whose current label is l, and GetEdgesWithAnyLabel(dir,S) exactly those whose current label is in S (all of them when S is empty), also after SetLabel has changed labels any number of times.",
  HIST+"; every direction, label and label set", WH, ["node.go:GetEdgesWithLabel","node.go:GetEdgesWithAnyLabel","edgemap.go:iteratorLabel","edgemap.go:iteratorAnyLabel","graph.go:setEdgeLabel"])
p("C07","Graph-wide edge label lookup follows the current label",
  "After any history, Graph.GetEdgesWithAnyLabel(S) yields exactly the live edges whose current label is in S, each once.",
  HIST+"; every label set", WH, ["graph.go:GetEdgesWithAnyLabel","graph.go:setEdgeLabel","edgemap.go:iteratorAnyLabel"])
p("C08","No dangling edges",
  "After any history in which edges are only created between live nodes, both endpoints of every live edge are live; DetachAndRemove and Detach remove exactly the edges incident to the node and Edge.Remove removes exactly that edge, leaving every other node's adjacency otherwise unchanged.",
  HIST, WH, ["graph.go:detachRemoveNode","graph.go:detachNode","graph.go:removeEdge"])
p("C09","Attributes read back what was last written",
  "GetProperty/GetLabels/HasLabel/GetLabel/GetFrom/GetTo return the value of the last write to that very object and key (or absence after RemoveProperty), and an operation on one object never changes the attributes of any other object.",
  HIST, WH, ["node.go:SetProperty","node.go:RemoveProperty","node.go:SetLabels","edge.go:SetProperty","edge.go:RemoveProperty","edge.go:SetLabel","graph.go:setNodeProperty","graph.go:removeNodeProperty","graph.go:setEdgeProperty","graph.go:removeEdgeProperty"])
p("C10","Label lookup of nodes is exact",
  "After any history and for every non-empty label set S, GetNodesWithAllLabels(S) yields exactly the live nodes that carry all labels of S, each once, also for nodes whose labels were cleared and set again.",
  HIST+"; every non-empty label set, every map iteration order", WH, ["graph.go:GetNodesWithAllLabels","maps.go:NodeMap.Add","maps.go:NodeMap.Remove","maps.go:NodeMap.Replace","maps.go:NodeMap.IteratorAllLabels"])
p("C11","Label lookup with the empty label set",
  "GetNodesWithAllLabels with an empty set (no requirement) yields all live nodes instead of failing.",
  "every graph state", "The failing input is a degenerate one that example-based tests do not cover.", ["graph.go:GetNodesWithAllLabels","maps.go:NodeMap.IteratorAllLabels"])
p("C12","Node property index agrees with a full scan",
  "After any history, GetNodesWithProperty(k) yields exactly the live nodes that have property k, each once, whether or not k is indexed, with a hash or a btree index, and whenever the index was added.",
  HIST+"; every key; both index types; indexed values mutually comparable (btree) or hashable (hash)", WH, ["graph.go:GetNodesWithProperty","indexes.go","hashindex.go","btreeindex.go","graph.go:setNodeProperty","graph.go:removeNodeProperty"])
p("C13","Edge property index agrees with a full scan",
  "After any history, GetEdgesWithProperty(k) yields exactly the live edges that have property k, each once, whether or not k is indexed.",
  HIST+"; every key; both index types", WH, ["graph.go:GetEdgesWithProperty","indexes.go","graph.go:removeEdge","graph.go:setEdgeProperty","graph.go:removeEdgeProperty"])
p("C14","FindNodes is exact",
  "FindNodes(S, props) yields exactly the live nodes that carry all labels in S and whose property k compares equal to v for each (k,v) in props, each once, whichever of the label and property indexes it decides to iterate.",
  HIST+"; every label set and property map, every map iteration order", WH, ["graph.go:FindNodes","graph.go:GetNodeFilterFunc"])
p("C15","FindNodes by property only",
  "FindNodes with an empty label set and a non-empty property map returns the nodes with those properties (documented: 'If allLabels is nil or empty, it does not look at the labels').",
  "every graph state, every non-empty property map", "The failing branch is not covered by tests of the label-based path.", ["graph.go:FindNodes"])
p("C16","FindEdges is exact",
  "FindEdges(S, props) yields exactly the live edges whose label is in S (any label if S is empty) and whose properties compare equal to props.",
  HIST+"; every label set and property map", WH, ["graph.go:FindEdges","graph.go:GetEdgeFilterFunc"])
p("C17","Filter functions decide label and property match",
  "GetNodeFilterFunc(S,props)(n) never panics and returns true exactly when n has all labels of S and every required property exists on n and compares equal; GetEdgeFilterFunc likewise with 'label in S'.",
  "every label set, property map, node and edge", "Values are drawn from an infinite recursive type, comparison may panic in the middle of nested slices.", ["graph.go:GetNodeFilterFunc","graph.go:GetEdgeFilterFunc","properties.go:ComparePropertyValue"])
p("C18","ComparePropertyValue is a total order where it is defined",
  "On values on which it does not panic ComparePropertyValue returns only -1, 0 or 1, is reflexive, antisymmetric in the sense cmp(a,b) = -cmp(b,a) (and defined one way iff defined the other way), transitive, ignores native-value wrappers, and orders scalars by value and slices lexicographically with the shorter prefix first.",
  "all values built from int, string, []int, []string, []interface{}, native wrappers and unsupported types, nested to any depth", "Order laws quantify over triples of arbitrarily nested values.", ["properties.go:ComparePropertyValue"])
p("C19","StringSet implements a mathematical set and copies are independent",
  "Has/HasAny/HasAll/HasAnySet/HasAllSet/IsEqual/Len/Add/AddSet/Remove behave as on finite sets of strings, SortedSlice lists each member once in increasing order, and no sequence of Add/AddSet/Remove on one set changes any other set, in particular not one it was cloned from or returned by node.GetLabels.",
  "all sets, all operation sequences over any number of set variables sharing storage", "Aliasing bugs depend on the order of clone and update operations.", ["stringset.go"])
p("C20","NodeSet and EdgeSet are insertion-ordered sets",
  "After any sequence of Add/Remove of nodes of one graph, Has is membership, Len the number of members, and Iterator/Slice list each member once in order of (last) insertion.",
  "all operation sequences of any length", WH, ["sets.go:fastSet","sets.go:NodeSet","sets.go:EdgeSet"])
p("C21","NodeSet identifies nodes, not numbers",
  "A NodeSet that holds a node of one graph does not report Has for, nor drop or swallow, a different node of another graph.",
  "all pairs of graphs and nodes", "Tests use one graph at a time.", ["sets.go:NodeSet.Add","sets.go:NodeSet.Has"])
p("C22","String table interns with reference counts",
  "For any sequence of allocate and free that only frees held references, equal strings get equal indexes while held, different held strings get different indexes, str(i) returns the string allocated at i, lookup agrees with what is held, and a string disappears exactly when its last reference is freed; freed slots are reused before the table grows.",
  "all allocate/free sequences of any length", WH, ["stringtable.go"])
p("C23","Iterator combinators",
  "A filtered iterator yields exactly the accepted items in order, MultiIterator the concatenation, the unique iterator every item once at its first occurrence, and MaxSize is either -1 or an upper bound on the number of items that remain at creation for the iterators handed out by the graph.",
  "all underlying iterators, filters and item sequences", "Quantifies over all underlying iterators.", ["itr.go"])
p("C24","Path accessors are consistent",
  "For every path, NumNodes = NumEdges+1 (or 0/1 for empty/single node paths), First = GetNode(0), Last = GetNode(NumNodes-1), consecutive elements of a path built by Append are connected (target of element i is the source of element i+1), and Append panics on a disconnected edge.",
  "all paths and append sequences", "Quantifies over all paths of any length.", ["path.go"])
p("C25","AppendPath concatenates",
  "p.AppendPath(q) yields the path with p's elements followed by q's, keeps the single node when either side is a single node, panics when disconnected and does not modify q.",
  "all pairs of paths (empty, single-node, multi-edge)", "Case split over all kinds of paths.", ["path.go:AppendPath","path.go:Append"])
p("C26","Path.Slice and prefixes",
  "For 0 <= s < e <= NumNodes, Slice(s,e) is the sub-path visiting nodes s..e-1; HasPrefix/HasPrefixPath(q) holds exactly when q is an initial segment of p.",
  "all paths and index pairs", "Quantifies over all paths and indexes.", ["path.go:Slice","path.go:HasPrefix","path.go:HasPrefixPath"])
p("C27","RemoveLast / RemoveFirst / PopFromPath only shorten the path",
  "RemoveLast (RemoveFirst) drops the last (first) edge of the path, leaves a single-edge path as its source node, and leaves the graph unchanged; Cursor.PopFromPath moves the cursor back to the previous node.",
  "all paths", "Side effects on the graph are not looked at by path tests.", ["path.go:RemoveLast","path.go:RemoveFirst","cursor.go:PopFromPath"])
p("C28","Variable-length path search is exact and terminates",
  "CollectAllPaths terminates on every finite graph (cyclic ones included) and, when the callback never stops it, reports exactly the edge-distinct trails that begin with an edge of the first leg, continue in the given direction over accepted edges, and have between min and max edges (-1: unbounded), each exactly once; if the callback returns false the reports form a prefix of that sequence ending there.",
  "all graphs, start nodes, filters, directions, bounds and callbacks", "Termination and exactness must hold on every cyclic multigraph.", ["vpathitr.go:CollectAllPaths"])
p("C29","Pattern matches are sound",
  "Every result reported by Pattern.Run binds each node item to a node and each edge item to a connected trail of the graph satisfying the item's labels, properties, direction, length bounds and symbol constraints.",
  "all graphs, patterns, symbol tables and planner choices", "Quantifies over all graphs and patterns.", ["pattern.go:GetPlan","pattern.go:MatchPlan.Run","planprocessors.go"])
p("C30","Pattern matches are complete",
  "Every assignment of nodes and trails satisfying the pattern is reported by Pattern.Run exactly once.",
  "all graphs, patterns, symbol tables and planner choices", "Quantifies over all graphs and patterns.", ["pattern.go:GetPlan","pattern.go:MatchPlan.Run","planprocessors.go"])
p("C31","The planner does not change the answer",
  "The set of matches does not depend on which pattern element the planner starts from (hence not on indexes, on graph size or on map order).",
  "all graphs and patterns, all start elements", "The planner's choice depends on sizes of the data.", ["pattern.go:getFastestElement","pattern.go:GetPlan","pattern.go:estimateNodeSize","pattern.go:estimateEdgeSize"])
p("C32","The reported path is the matched path",
  "For every match, the reported Path visits exactly the matched edges in pattern order, and its first/last node are the nodes bound to the first/last pattern item.",
  "all graphs, patterns, planner choices", "Depends on the planner's start element and on edge directions.", ["pattern.go:GetCurrentPath"])
p("C33","Symbols: a repeated or bound name denotes one value",
  "If two items of a pattern have the same name, or a name is bound in the symbols given to Run, every match binds them to the same element / to an element of the bound set.",
  "all graphs, patterns and symbol tables", "Depends on backtracking order over all candidate bindings.", ["pattern.go:recordStepResult","pattern.go:resetStepResult","pattern.go:isConstrainedNodes","pattern.go:isConstrainedEdges"])
p("C34","Sources, Sinks, EdgesBetweenNodes, Next/PrevNodesWith",
  "Sources (Sinks) yields exactly the live nodes without incoming (outgoing) edges; EdgesBetweenNodes(a,b) exactly the live edges from a to b; NextNodesWith/PrevNodesWith exactly the distinct targets/sources of the node's edges with that label.",
  HIST, WH, ["alg.go:Sources","alg.go:Sinks","alg.go:EdgesBetweenNodes","node.go:NextNodesWith","node.go:PrevNodesWith","itr.go:TargetNodes","itr.go:SourceNodes"])
p("C35","CheckIsomorphism recognises isomorphic graphs",
  "If there is a bijection between the nodes of g1 and g2 respecting the node equivalence and a bijection of edges respecting endpoints and the edge equivalence, CheckIsomorphism returns true (context not cancelled).",
  "all pairs of graphs and equivalence functions", "Search space is exponential; tests check small graphs.", ["alg.go:CheckIsomorphism"])
p("C36","CheckIsomorphism rejects non-isomorphic graphs",
  "If CheckIsomorphism returns true there is a bijection between the nodes of g1 and g2, respecting both equivalences and adjacency.",
  "all pairs of graphs and equivalence functions", "Search space is exponential; tests check small graphs.", ["alg.go:CheckIsomorphism"])
p("C37","CopyGraph makes a faithful, independent copy",
  "CopyGraph(src,dst,f) adds to dst exactly one node per node of src with the same labels and f-mapped properties and one edge per edge of src between the copies with the same label and f-mapped properties; the returned map is that bijection; src and the previous content of dst are unchanged.",
  "all source and target graphs and property functions", "Quantifies over all graphs.", ["clone.go:CopyGraph","clone.go:CopyGraphf","graph.go:cloneNode","graph.go:cloneEdge"])
p("C38","CopySubgraph copies exactly the reachable part",
  "CopySubgraph(n,dst,f,map) with an empty map terminates, copies exactly the nodes reachable from n over outgoing edges and exactly their outgoing edges, each once.",
  "all graphs (cyclic included) and start nodes", "Cycles of any shape.", ["clone.go:CopySubgraph","clone.go:CopyNode","clone.go:CopyEdge"])
p("C39","JSON round trip",
  "Decoding the JSON encoding of a graph (edges embedded or separate) into an empty graph yields a graph isomorphic to the original: same labels, properties and edges with multiplicity, for property (un)marshalers that are inverse to each other.",
  "all graphs, both edge modes, every node output order", "Quantifies over all graphs.", ["json.go:Encode","json.go:Decode","json.go:addNode","json.go:addEdge"])
p("C40","JSON encoding is well-formed",
  "Encode writes a syntactically valid JSON document for every graph and both edge modes.",
  "all graphs, both modes", "Comma placement depends on emptiness of every part.", ["json.go:Encode"])
p("C41","JSON decoding validates references and ignores unknown keys",
  "Decode reports an error when an edge refers to a node index that is not in the document, and never otherwise loses nodes or edges; top-level keys other than nodes/edges are skipped whatever their value.",
  "all JSON documents", "Quantifies over all documents.", ["json.go:Decode","json.go:addNode"])
p("C42","Graphs are isolated from each other",
  "NewEdge panics when one of the nodes belongs to another graph (and changes nothing), every edge connects nodes of its own graph, and no operation on one graph changes anything observable of another graph.",
  "all histories over any number of graphs", WH, ["graph.go:FastNewEdge","graph.go:cloneEdge","edge.go:GetGraph"])
p("C43","Edges cannot be attached to removed nodes",
  "NewEdge rejects a node that has been removed from the graph.",
  "all histories", WH, ["graph.go:FastNewEdge","graph.go:detachRemoveNode"])
p("C44","Cursor navigation",
  "Cursor.Nodes(dir) (and NodesWith) yields exactly the distinct neighbours of the current node in that direction, an empty iterator for an unset cursor; PushToPath records a connected path and moves to the edge's target.",
  "all graphs, directions and push sequences", "Quantifies over all graphs.", ["cursor.go","itr.go:nodesFromEdgesIterator"])
p("C45","DOT rendering is referentially consistent",
  "Render writes one node statement per rendered node with pairwise distinct names, and one edge statement for exactly the edges whose two ends were rendered, referring to these names; the first writer or renderer error stops rendering and is returned.",
  "all graphs, renderers and writer failures", "Quantifies over all graphs and failure points.", ["dotrenderer.go"])
p("C46","NodeMap.Iterator lists every node once",
  "For a NodeMap built with Add/Remove/Replace, Iterator yields every contained node exactly once, however many labels it has.",
  "all operation sequences, label sets and map orders", WH, ["maps.go:NodeMap.Iterator","maps.go:nodeMapIterator.Next"])
p("C47","NewNode copies its inputs",
  "After NewNode/NewEdge the caller may change the property map and label slice it passed without affecting the graph, and FastNewNode/FastNewEdge share exactly the map passed in.",
  "all later mutations of the passed containers", "Aliasing shows only under specific later mutations.", ["graph.go:NewNode","graph.go:NewEdge","graph.go:FastNewNode","graph.go:FastNewEdge"])
p("C48","ForEachNode and early termination",
  "ForEachNode calls the predicate on the nodes in GetNodes order up to and including the first one that returns false, and returns true iff none did; ForEachProperty likewise over all properties.",
  "all graphs and predicates", "Quantifies over all predicates.", ["alg.go:ForEachNode","properties.go:forEachProperty"])

p("C49","Valid histories never panic",
  "No API call made on live nodes and edges of the graph panics, as long as the values given to an indexed property suit the index (pairwise comparable for a btree index, hashable for a hash index).",
  HIST, WH, ["graph.go","edgemap.go","list.go","indexes.go","hashindex.go","btreeindex.go"])
p("C50","Lookups through a btree index are sorted",
  "GetNodesWithProperty(k), when k has a btree index, yields the nodes in non-decreasing order of their property value.",
  HIST, WH, ["btreeindex.go:valueItr","graph.go:GetNodesWithProperty"])

p("C51","Every graph of a program with several graphs behaves as if it were alone",
  "In a program that creates any number of graphs and interleaves calls on them, each graph answers every query with exactly what the calls on this graph have built; calls on other graphs have no effect on it.",
  "all interleaved histories over any number of graphs", WH, ["graph.go:NewNode","graph.go:NewEdge","graph.go:FastNewEdge","node.go","edge.go"])

p("C52","Paths do not share their elements",
  "Every path is a value of its own: whatever calls are made on paths (Append, AppendPath, Clone, Slice, RemoveLast, RemoveFirst, SetOnlyNode, Clear), a call changes only its receiver (and, for AppendPath, the single node of its argument), whatever capacities the runtime chooses when slices grow.",
  "all sequences of path calls over any number of paths, all growth policies", "Sharing shows only for particular capacities and particular later appends.", ["path.go:NewPathFromElements","path.go:Clone","path.go:Append","path.go:AppendPath","path.go:Slice","path.go:RemoveLast","path.go:RemoveFirst"])

p("C53","FindNodes returns the first nodes of the matches",
  "Pattern.FindNodes returns, once each, exactly the nodes at which a match of the pattern begins, and GetTailNodes of what FindPaths returns exactly the nodes at which one ends. GetSymbolNames returns exactly the non-empty names of the items, and a PatternSymbol returns exactly the nodes and edges that were added to it.",
  HIST+"; all patterns and symbols", WH, ["pattern.go:FindPaths","pattern.go:FindNodes","pattern.go:GetHeadNodes","pattern.go:GetTailNodes","pattern.go:GetSymbolNames","pattern.go:PatternSymbol"])
p("C54","String sets survive JSON",
  "UnmarshalJSON of what MarshalJSON writes gives the same set, independent of the first; UnmarshalJSON accepts exactly null and arrays of strings (or nulls), and leaves the set alone when it fails.",
  "all sequences of operations on sets, all JSON texts", "Quantifies over all sets and all texts.", ["stringset.go:MarshalJSON","stringset.go:UnmarshalJSON"])
p("C55","Interning does not change strings",
  "Whatever strings are interned with a MapInterner, and in whatever order, Intern returns a string equal to its argument.",
  "all sequences of calls", "Quantifies over all sequences.", ["json.go:MapInterner"])

p("C56", "A graph among other graphs is indistinguishable from the same graph alone",
  "In a program that creates any number of graphs and interleaves calls on them, each graph answers every query exactly as a graph would that is the only one of its program and receives the same calls in the same order; a call panics on it exactly if it panics on the single graph. This includes programs that use removed nodes and edges, that are refused because of nodes of another graph, or that run into the defects recorded elsewhere.",
  "all programs over any number of graphs, each graph, each query, each next call",
  "The number of interleavings grows without bound, and a test compares one interleaving with one run; a dependence on a neighbour that needs a particular sequence of creations and removals is not met by chance.",
  ["graph.go:NewNode", "graph.go:NewEdge", "graph.go:FastNewEdge", "graph.go:detachNode", "node.go", "edge.go"])

p("C57", "A loop over GetNodes may remove the nodes it has visited",
  "The comments leave open what an iterator of GetNodes does when the graph changes. A loop whose body removes nodes only after it has visited them, and calls anything else in between, visits every node that existed when the loop began exactly once, in the order of creation, and no node that is removed; a node created by the body is visited, too, unless the last node had been fetched already. A loop that removes every node it visits ends and leaves an empty graph.",
  HIST+"; all interleavings of calls of Next with other calls",
  "A loop body can do anything at any point; a test fixes one body.",
  ["graph.go:GetNodes", "list.go:nodeListIterator", "list.go:nodeList.remove", "graph.go:detachRemoveNode"])

p("C58", "A loop over edges may remove the edges it has visited",
  "A loop over the edges of a graph or of a node (all of them, those with a label, those with one of several labels) whose body removes edges only after it has visited them visits every edge that was asked for when the loop began exactly once, and only edges that still exist, still belong to the node and still have a label that was asked for. Setting the label of an edge of the node is allowed after it was visited, if the new label is not asked for. The body may create edges and do anything else. If it creates none, Next returns false at last. A loop that removes every edge it visits removes exactly the edges asked for.",
  HIST+"; all interleavings of calls of Next with other calls",
  "A loop body can do anything at any point; a test fixes one body.",
  ["node.go:GetEdges", "node.go:GetEdgesWithLabel", "node.go:GetEdgesWithAnyLabel", "graph.go:GetEdges", "graph.go:GetEdgesWithAnyLabel", "list.go:edgeListIterator", "edgemap.go:edgeMap.iterator", "edgemap.go:edgeMap.remove", "itr.go:MultiIterator"])

p("C59", "A loop over the nodes with some labels may remove or relabel the nodes it has visited",
  "A loop over GetNodesWithAllLabels, for a non-empty set of labels, whose body removes nodes or takes these labels from them only after it has visited them, and does not give one of the labels back to a visited node, visits every node that had all the labels when the loop began exactly once, and only nodes that exist and have all the labels when they are yielded. The body may create nodes, give the labels to other nodes and do anything else. A loop that sets the labels of every node it visits, to whatever set, ends, and changes the labels of exactly the nodes that had all the labels when it began. A loop that removes every node it visits removes exactly those.",
  HIST+"; all interleavings of calls of Next with other calls",
  "A loop body can do anything at any point; a test fixes one body.",
  ["graph.go:GetNodesWithAllLabels", "maps.go:IteratorAllLabels", "maps.go:Replace", "maps.go:Remove", "sets.go:fastSet", "itr.go:listIterator", "itr.go:filterIterator"])

p("C60", "Calls on removed nodes and edges do not change the graph",
  "A program that goes on using a node or an edge after it was removed gets the same answers about the graph as the program without those calls: the same nodes, edges, counts, label lookups, adjacency, labels, properties and searches. This is to hold for Detach, SetLabels with no labels, and SetProperty and RemoveProperty with keys that never get an index; these calls return. For the others it is recorded exactly what happens: a second DetachAndRemove always makes NumNodes too small by one, SetLabels makes the label lookup return the removed node, SetProperty with an indexed key makes the property lookup return it, a second Edge.Remove makes NumEdges too small and loses live edges with the same label.",
  "all sequences of API calls, on live and on removed nodes and edges, of any length",
  "Nothing marks a handle as stale; which later answer goes wrong depends on the pointers that the removed object still holds and on everything that happened since.",
  ["node.go:Detach", "node.go:DetachAndRemove", "node.go:SetLabels", "node.go:SetProperty", "node.go:RemoveProperty", "edge.go:SetProperty", "edge.go:RemoveProperty", "edge.go:Remove", "list.go:nodeList", "list.go:edgeList", "graph.go:detachNode", "graph.go:setNodeLabels"])

p("C61", "A loop over the nodes or edges with a property may change the graph",
  "A loop over GetNodesWithProperty or GetEdgesWithProperty whose body changes the graph visits every node or edge at most once, yields only those that exist and have the property at that time, and when it ends has visited all that had it when the loop began. This is to hold, with a hash index, if the body removes visited objects or takes the property from them, gives it to others, and creates new ones; loops that remove every visited object, or its property, return and leave none. Without an index the body may also change the property of visited nodes, and a loop that sets the property of every node it visits ends. With a hash index the same loop never ends when two nodes have the property.",
  "all histories before the loop, all loop bodies, any number of rounds",
  "The iterator holds the list element that comes next while the index unlinks and appends elements; whether a node is skipped, repeated or visited forever depends on where the loop is when the call is made, and on whether an index exists.",
  ["graph.go:GetNodesWithProperty", "graph.go:GetEdgesWithProperty", "hashindex.go:hashIndex", "indexes.go:nodesByProperty", "itr.go:listIterator", "itr.go:filterIterator", "list.go:nodeListIterator", "graph.go:setNodeProperty", "graph.go:setEdgeProperty"])

p("C62", "JSON decoding accepts only complete documents of the right types",
  "If Decode reports no error, the input begins with a complete JSON object in which the nodes are a list of objects with an integer n, a list of strings as labels, an object as properties and a list of edges, and the edges are objects with integers, a string and an object; field names may be written in any case, null stands for an absent value. So input that ends too early, is not JSON, or has a value of the wrong type is rejected. Exactly the documents whose properties unmarshal and whose edges refer to their nodes are accepted. Whatever the input is, Decode returns, the old content of the graph is unchanged, and every node and edge it added is written in the input.",
  "all inputs, all graphs to decode into, all property unmarshalers",
  "Malformed inputs are unbounded in number, and Decode mixes a token loop that counts depth by hand with calls that read whole values; whether some truncated or mistyped input slips through cannot be seen from samples.",
  ["json.go:Decode", "json.go:jsonNode", "json.go:jsonEdge", "json.go:jsonOutgoingEdge", "json.go:unmarshalProperties"])

p("C63", "Looking up a value in a property index",
  "Looking up a value in the index of a property (what FindNodes, FindEdges and patterns start from) yields no iterator if the property has no index. Otherwise, for a btree index, it yields, each once, every indexed object whose current value compares equal to the value asked for and none whose value compares less or greater; for a hash index, every indexed object whose value is the same Go value up to one wrapper with a native value on either side. The reported size is the exact number of objects.",
  "all histories of graph operations, all property keys, all values, both index types, nodes and edges",
  "A stale or misfiled entry shows up only for particular orders of value changes, removals and index creations over values of mixed types, whose comparison is partial.",
  ["indexes.go:GetIteratorForNodeProperty", "indexes.go:GetIteratorForEdgeProperty", "btreeindex.go:find", "hashindex.go:find", "properties.go:ComparePropertyValue"])

p("C64", "Copying part of a graph with CopyGraphf",
  "CopyGraphf calls the node function exactly once for each node of the source, in the order in which the nodes were created, with the map of the copies made so far; the result maps each node for which the function returned a node to that node and has no other keys. After that it calls the edge function exactly once for each edge whose two ends are in the map, and for no other edge. With functions that clone into another graph the nodes and edges chosen by a filter, the target gains a faithful copy of exactly the chosen nodes and of the chosen edges between them, and no other graph changes.",
  "all histories of graph operations, all pairs of functions that do not change the source or the map, all filters",
  "The functions are arbitrary code with state; tests try a few filters on small graphs and seldom have self-loops, parallel edges or an edge with only one end copied.",
  ["clone.go:CopyGraphf", "clone.go:CopyGraph"])

p("C65", "Encode and a writer that fails",
  "Encode writes the text of the graph piece by piece and stops at the first error of the writer, which it returns; it does not call the writer again. The pieces together are the text that a writer without errors is given, whichever writer it is. So what a writer that keeps what it is given holds afterwards is what it held before followed by a first part of that text; if Encode returns no error it is the whole text, and if it returns an error of a property, everything before that property was written. Encode of a graph returns.",
  "all graphs, all codecs of properties, all orders of the map of nodes, all writers with any state and any errors",
  "A writer can fail at any call; tests fail it at one or two places, so one unchecked error among more than twenty remains unseen.",
  ["json.go:Encode"])

p("C66", "Texts of nodes, edges, paths and string sets",
  "String of a node returns `(:A:B {k1:v1 k2:v2})`: each label of the node once and each property once, in some order, except properties whose value is a node or an edge; every such text may be returned, and no other. String of an edge likewise, with its label. String of a path has one piece for each element, in order and separated by single spaces: the text of the node the edge comes from, an arrow, the text of the node it goes to, and the word Reverse if the edge is passed backwards; nothing of the texts is trimmed away. String of a string set lists each member once, in some order, separated by a comma and a space. Nodes with the same text have the same labels, if no label contains a colon or a space.",
  "all histories, all nodes, edges and paths of the graph, all labels and values, all orders in which the maps are visited",
  "The maps are visited in random order, so a test compares with one of many texts; values with spaces or parentheses at the ends of a text are rarely tried.",
  ["node.go:String", "edge.go:String", "path.go:String", "properties.go:String", "stringset.go:String"])

p("C67", "Running a plan again",
  "Running a plan that GetPlan returned a second time, with the same graph and the same symbols, calls StoreResult with the same paths and symbols and returns the same error as the first time.",
  "all graphs, all patterns and symbols, all numbers of runs",
  "Tests make a plan for each search. What a plan keeps between runs shows only when one plan is run again, and what is left of it after an error depends on where the error occurred.",
  ["pattern.go:GetPlan", "pattern.go:Run", "planprocessors.go:Run"])

p("C68", "What a call leaves behind when a property index panics",
  "A call that panics in a property index, because the value cannot be a map key or cannot be compared, and is recovered from, leaves a consistent graph. NewNode and NewEdge have created the node or edge; SetProperty has set the property, or, if the old value cannot be removed from the index, changed nothing; RemoveProperty has changed nothing; adding an index has changed no node and no edge; Detach has removed some of the edges of the node; DetachAndRemove has removed the node and its edges, or some of its edges only. So the nodes, the edges, their labels and properties are those of a history of calls without panics, and all later calls act on that graph.",
  "all programs of graph operations that recover from any number of such panics, all values, all sets of indexes",
  "Tests do not recover from panics and go on; where a call stops depends on the order of several updates inside it.",
  ["graph.go:NewNode", "graph.go:NewEdge", "graph.go:setNodeProperty", "graph.go:removeNodeProperty", "graph.go:detachNode", "graph.go:detachRemoveNode", "graph.go:setEdgeProperty", "graph.go:removeEdgeProperty", "indexes.go:addNodeToIndex", "indexes.go:removeNodeFromIndex"])

p("C69", "A value that a hash index cannot hold stays",
  "If a property has a hash index and is set to a value that cannot be a map key, SetProperty panics after it has set the property. Whatever the program does after recovering, the property keeps that value: SetProperty and RemoveProperty of it panic and change nothing, DetachAndRemove of the node panics, and GetNodesWithProperty yields the node for ever, even if it was removed. The same holds for edges and GetEdgesWithProperty, except for the removal of the edge.",
  "all programs of graph operations that recover from any number of such panics, before and after, all such values, nodes and edges",
  "It says that no sequence of later calls repairs the graph; a test can only try some.",
  ["hashindex.go:add", "hashindex.go:remove", "graph.go:setNodeProperty", "graph.go:removeNodeProperty", "graph.go:setEdgeProperty", "graph.go:removeEdgeProperty"])

p("C70", "The indexes on nodes after panics",
  "Whatever panics of property indexes a program has recovered from, GetNodesWithProperty returns no node twice and only nodes that have the property, and a lookup of a value in an index yields each node of that index once whose current value is that value (hash) or compares equal to it (btree), none with another value, and reports their exact number.",
  "all programs of graph operations that recover from any number of such panics, all property keys, all values, both index types",
  "A panic leaves one index half updated and the others not updated at all; an entry that is wrong then shows up only in some later lookup.",
  ["indexes.go:addNodeToIndex", "indexes.go:removeNodeFromIndex", "hashindex.go:add", "hashindex.go:find", "btreeindex.go:find", "graph.go:GetNodesWithProperty"])

p("C71", "A NodeMap kept by the caller",
  "A program that keeps a set of nodes in its own NodeMap, adding a node that is not in it, removing a node that is, and calling Replace with the old and new labels when it changes the labels of a node in it, finds exactly these nodes with Iterator, each once; exactly those that have all given labels with IteratorAllLabels; and IsEmpty says whether there are none.",
  "all sequences of such uses, all labels of the nodes before, all non-empty label sets asked for",
  "What a wrong call leaves behind in one of the sets shows only when the node has the label again or the other sets have been emptied; tests make few calls on one map.",
  ["maps.go:NewNodeMap", "maps.go:Add", "maps.go:Remove", "maps.go:Replace", "maps.go:IsEmpty", "maps.go:Iterator", "maps.go:IteratorAllLabels"])

p("C72", "Graphs that were decoded or copied are ordinary graphs",
  "After JSON decoding of any text into a graph, whether it succeeds or fails, and after CopyGraph, CopyGraphf with functions that clone, CopySubgraph, CopyNode or CopyEdge into live nodes, the graphs of the program are exactly those that some sequence of valid calls of NewNode and NewEdge on the same graph would have left; a graph decoded into a new one is right in all its enumerations and lookups.",
  "all programs before, all texts, all codecs, all graphs, all property functions, all choices of nodes and edges",
  "A graph built in another way than by calls could break the invariants that later calls rely on; the damage would only show in some later call on some later graph, which tests of decoding and copying do not make.",
  ["json.go:Decode", "clone.go:CopyGraph", "clone.go:CopyGraphf", "clone.go:CopySubgraph", "clone.go:CopyNode", "clone.go:CopyEdge"])

p("C73", "Questions are answered by the graph, not by how it was built",
  "If two programs build the same graph, up to a renaming of nodes and edges, then every question has the same answers in both, up to the renaming and the order: numbers, attributes, edges of a node by direction and label, edges between nodes, neighbours, nodes and edges by label and by property, FindNodes, sources and sinks, the enumerations of the whole graph, and the matches of a pattern. In particular a graph written as JSON and read back answers as the original does, and so does a copy in an empty graph.",
  "all pairs of programs, with and without indexes, in any order of calls, all questions, all patterns, all names bound by the caller",
  "Tests compare an answer with an expected one for one way of building the graph; that no order of calls, no removed object and no index has any influence is a statement about pairs of programs.",
  ["graph.go:GetNodes", "graph.go:GetEdges", "graph.go:GetNodesWithAllLabels", "graph.go:GetNodesWithProperty", "graph.go:GetEdgesWithProperty", "graph.go:FindNodes", "node.go:GetEdges", "node.go:GetEdgesWithAnyLabel", "pattern.go:Run", "json.go:Encode", "json.go:Decode", "clone.go:CopyGraph"])

p("C74", "What is left after any panic of a call that changes the graph",
  "A program may recover from every panic of a call that changes the graph and go on. Every call on nodes and edges of the graph returns or panics; none runs forever. The nodes, labels, properties and edges of nodes that the program sees are those of a history of calls: each call that returned, and for each call that panicked what it had done. NewEdge that panics because GetEdges would yield a nil edge has created no edge. From then on, whatever the program does, GetEdges yields a nil edge, NumEdges is 1, GetEdgesWithAnyLabel and NewEdge panic. AddEdgePropertyIndex that panics for this reason leaves an index that holds no edge.",
  "all programs of calls that change the graph, with all outcomes, all orders in which maps are visited, all values and all indexes",
  "The states after a panic are reached by no test; that a broken edge list can never be repaired is a statement about all later calls.",
  ["graph.go:FastNewEdge", "graph.go:AddEdgePropertyIndex", "graph.go:NumEdges", "graph.go:GetEdges", "graph.go:GetEdgesWithAnyLabel", "edgemap.go:add", "edgemap.go:remove", "indexes.go:EdgePropertyIndex"])

p("C75", "Index lookups after any panic of a call that changes the graph",
  "A program may recover from every panic of a call that changes the graph and go on. After that a lookup of a value in an index, on nodes or on edges, yields no element twice, gives their exact number, and yields only elements of the index whose property currently has that value. In an index on nodes and in a btree index on edges it yields all of those. GetNodesWithProperty, and GetEdgesWithProperty of a property with a btree index, yield no element twice and only elements that have the property.",
  "all programs of calls that change the graph, with all outcomes, all orders in which maps are visited, all values and all indexes",
  "A panic in the middle of a call leaves some indexes changed and others not; tests do not look at indexes after a panic.",
  ["hashindex.go:find", "btreeindex.go:find", "indexes.go:addEdgeToIndex", "indexes.go:removeEdgeFromIndex", "graph.go:setEdgeProperty", "graph.go:FastNewEdge", "graph.go:AddEdgePropertyIndex", "graph.go:GetEdgesWithProperty", "graph.go:GetNodesWithProperty"])

p("C76", "Holding an iterator while the graph changes does no harm",
  "A program may keep an iterator over nodes or over edges and call any operations of the graph between two calls of Next, also ones that remove or relabel what the iterator is about to yield. Every call of Next returns; none panics or runs forever. The graph at the end is the one that the operations alone leave. This holds for the iterators of GetNodes, of GetNodesWithAllLabels with at least one label, of the edges of a node with or without labels, of the edges of the graph if GetEdges yields no nil edge when the iterator is made, and of GetNodesWithProperty and GetEdgesWithProperty with a hash index or without an index.",
  "all histories, all later calls on nodes and edges of the graph, and all points at which Next is called",
  "A test has one loop body; which pointers an iterator still follows after any sequence of removals cannot be enumerated.",
  ["list.go:nodeListIterator", "list.go:edgeListIterator", "edgemap.go:allEdgesItr", "edgemap.go:iteratorAnyLabel", "itr.go:filterIterator", "itr.go:listIterator", "itr.go:MultiIterator", "maps.go:IteratorAllLabels", "hashindex.go:valueItr"])

p("C77", "Iterators do not influence each other",
  "A program may hold any number of iterators over the nodes and edges of a graph at the same time, as nested loops do, and call any operations in between. What the calls of Next of one iterator return is what they return in the program that makes only this iterator, at the same point, and calls the same operations. The graph at the end is the one that the operations alone leave. Every call of Next returns, and so does every call that makes an iterator, under the conditions under which a single iterator does (C76). So an outer loop over the nodes visits, in order and at most once, every node that was listed when it began and still exists when it ends, whatever loops its body runs, and a loop over the edges of a node inside it visits the edges it should.",
  "all programs that make iterators of GetNodes, of GetNodesWithAllLabels, of the edges of the graph or of a node with or without labels, and of GetNodesWithProperty and GetEdgesWithProperty with a hash index or without an index, at any time and in any number",
  "A test has a few fixed nestings; how the calls of Next of several iterators and the operations can alternate is unbounded.",
  ["graph.go:GetNodes", "graph.go:GetNodesWithAllLabels", "graph.go:GetEdges", "graph.go:GetEdgesWithAnyLabel", "graph.go:GetNodesWithProperty", "graph.go:GetEdgesWithProperty", "node.go:GetEdges", "node.go:GetEdgesWithAnyLabel", "list.go:nodeListIterator", "list.go:edgeListIterator"])

p("C78", "What Decode leaves behind when it panics",
  "JSON.Decode into a graph with a property index panics if the text has a value that the index cannot hold, and Decode into a graph whose edges cannot be listed panics at the first edge. If the program recovers, the graph is the one that some calls of NewNode and NewEdge leave, all of which returned but the last. All nodes and edges that the graph had before are there, with their labels, ends and properties. Later calls and lookups behave as after any other panic (C74, C75), and a later Decode returns or panics in turn. Decode never runs forever.",
  "all graphs of programs that recover from panics, all texts, all property unmarshalers that return",
  "A test panics at one place of one document; what is left behind must hold for every document and every place.",
  ["json.go:Decode", "json.go:addNode", "json.go:addEdge", "graph.go:NewNode", "graph.go:NewEdge", "indexes.go:addNodeToIndex", "indexes.go:addEdgeToIndex", "hashindex.go:add", "btreeindex.go:add"])

p("C79", "What a copy leaves behind when it panics",
  "CopyGraph and CopySubgraph into a graph with a property index panic if a copied value does not suit the index, and copying into a graph whose edges cannot be listed panics at the first edge. If the program recovers, the target has all it had and, if CopyGraph panicked, copies of the first nodes of the source, or of all nodes and of the first edges. If CopySubgraph panicked, the target has copies of nodes that can be reached from the given one and of edges between these or to copies made earlier, each once. Every copy, the last one included, has labels, ends and properties as a finished copy has them. All other graphs answer every query as before. CopySubgraph always returns or panics; so does CopyGraph between two graphs if the edges of the source can be listed.",
  "all histories on several graphs, all orders in which an index sees the properties of a new node or edge, all property functions, all maps given to CopySubgraph",
  "A test panics at one node of one graph; what is left behind must hold wherever the panic occurs.",
  ["clone.go:CopyGraph", "clone.go:CopySubgraph", "clone.go:CopyNode", "clone.go:CopyEdge", "clone.go:CopyGraphf", "graph.go:cloneNode", "graph.go:cloneEdge", "indexes.go:addNodeToIndex", "indexes.go:addEdgeToIndex", "hashindex.go:add", "btreeindex.go:add"])

p("C80", "Several graphs in a program that recovers from panics",
  "A program with several graphs may recover from every panic of a call that changes a graph and go on with any of its graphs. Every call on nodes and edges of one graph returns or panics. What the program then sees of each graph (nodes in the order of the listing, labels, properties, ends and edges of nodes) is what a history of calls gives: each call that returned, and for each call that panicked what it had done. A call on one graph, also one that panics, changes no answer of another graph, lookups in its indexes included. What a graph or one of its indexes enumerates belongs to that graph. A lookup of a value in an index yields no element twice, gives their exact number, and yields only elements of the index whose property currently has that value; in an index on nodes and in a btree index on edges it yields all of those. NewEdge with a node of another graph panics and changes nothing.",
  "all programs with any number of graphs, with all outcomes of the calls, all orders in which maps are visited, all values and all indexes",
  "Graphs share nothing but the id counter and the heap; that a call stopped halfway leaves no pointer into another graph is a statement about all programs.",
  ["graph.go:FastNewNode", "graph.go:FastNewEdge", "graph.go:NewEdge", "graph.go:setNodeProperty", "graph.go:setEdgeProperty", "graph.go:detachRemoveNode", "graph.go:removeEdge", "graph.go:AddEdgePropertyIndex", "graph.go:AddNodePropertyIndex", "indexes.go:addNodeToIndex", "edgemap.go:add"])

p("C81", "Copies in a program that recovers from panics",
  "A program with several graphs has recovered from any number of panics and copies one graph, or the nodes that can be reached from one node, to another graph. CopyGraph returns or panics if the edges of the source can be listed, CopySubgraph always does. If the call returns, the target has all it had and copies of all nodes that the source lists and of all its listed edges between them, or of all nodes that can be reached and of all their outgoing edges. If it panics, the target has all it had and copies of the first of these; every copy has labels, ends and properties as a finished copy has them. All other graphs, the source included, answer every query and every lookup in an index as before. After the copy, returned or panicked, the program can go on with calls and further copies, and all this and what C80 says holds of the longer program.",
  "all programs with any number of graphs that mix calls and copies, with all outcomes of both, all orders in which maps are visited, all property functions and all maps given to CopySubgraph",
  "A copy walks whatever earlier panics left in the source; tests copy graphs that were built without a panic.",
  ["clone.go:CopyGraph", "clone.go:CopySubgraph", "clone.go:CopyNode", "clone.go:CopyEdge", "graph.go:cloneNode", "graph.go:cloneEdge", "indexes.go:addNodeToIndex", "indexes.go:addEdgeToIndex", "edgemap.go:add"])

with open(os.path.join(os.path.dirname(__file__),"..","properties.jsonl"),"w") as f:
    for x in P: f.write(json.dumps(x)+"\n")
print(len(P))
