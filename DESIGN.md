# Formal model of coin-or/GiMPy in Lean 4

The source is `/repo/src/gimpy` (`graph.py`, `tree.py`, `global_constants.py`). It was read as text and never run.

## Layout

* `lean/Verif/Model/*`  executable model of the Python code, function by function; each definition cites the file and
  lines it models and the simplifications made.
* `lean/Verif/Spec/*`   small specifications (walks, reachability, spanning trees, flows, abstract simple graph, DOT
  tokens, queue laws) that do not mention the algorithms of the model.
* `lean/Verif/Lemmas/*` helper lemmas and invariants.
* `lean/Verif/Props/*`  the property theorems `Cxx_...`, each with an `example` that meets its hypotheses.
* `properties.jsonl` the properties, `MANIFEST.json` which theorem proves which, `seeded/LOG.jsonl` the wrong programs the
  theorems were tested against.

## Modelling decisions

* **Exceptions are values.** Mutators return the object state after the call together with the exception (`EStateM`), so
  a half-done mutation before an exception is visible. Algorithms return `Except PyErr _`.
* **Dictionaries** are insertion-ordered association lists (`Dict`), as Python >= 3.7 dictionaries.
* **Node names** are an arbitrary type with decidable equality. Python's `1 == 1.0 == True` collisions are outside.
* **Attributes.** The core model keeps `attr` dictionaries. Algorithms are modelled on *columns*: one map per attribute
  key (e.g. `dist : N -> Option Int`), where `None` and "missing" coincide exactly as `Node.get_attr` makes them
  coincide (graph.py 142-145). Attributes that no algorithm reads back (labels, edge colours used for display) are left
  out; the *accesses* to them that can raise are kept (`Search.touch`, `Dfs.touchPred`, `Simplex.markArcs`).
  Where the colours and labels themselves are claimed about (C82, C83, C124–C130, C132), a second model carries them along and is
  proved to agree with the first.
* **Numbers** are integers (rationals for page rank and expression evaluation). Floating point is not modelled.
* **`while` loops** take fuel; running out of fuel is the error `PyErr.diverge`. Termination theorems give a fuel bound
  that suffices for every input, so a total-correctness statement reads "for all fuel >= bound the call returns ...".
  Divergence theorems say that no fuel suffices.
* **Recursion** takes fuel in the same way. For `dfs`, `strong_connect`, `print_nodes`, `printexp` and `postordereval` the fuel is the number of nested calls, so `diverge` stands for RecursionError (C121, C122).
* **blimpy** (`Stack`, `Queue`, `PriorityQueue`) is not in the repository. It is a parameter: theorems hold for every
  implementation that satisfies the stated laws: `LawfulBag`, `LawfulFIFO`, `LawfulPQ` (Spec/Queue), `LawfulSet`
  (Lemmas/Preflow: membership test and absence of repetitions). List implementations are proved to satisfy the laws.
* **Random numbers** (`random`) are a parameter: theorems hold for every sequence of draws.
* **Display**: inside the algorithms `self.display()` is modelled in mode 'off' (graph.py 1761-1762), where it returns immediately; `Model/Display.lean` models it in all modes.
* **Identity tests** `is` on the graph type strings are modelled as equality; `Model/GraphType.lean` models them apart for the edit calls (C117). So are those on node names in `network_simplex`;
  `Model/SimplexNames.lean` models them with an object for each place where a name is kept, and C104 relates the two.
* **Graphs in theorems** are `Built g`: made by the constructor and any finite list of edit calls in scope, including
  calls that raise. This gives the invariants instead of assuming them.
* **False claims.** When the code does not have a property, the property keeps its statement, its status is `partial`,
  the negation is proved (for all inputs where that is possible, else with a concrete witness) and a theorem with the
  suffix `_partial` proves what does hold.

## Properties

| id | status | property | modelled | how proved | theorems | note |
|---|---|---|---|---|---|---|
| C01 | proved | Digraph views stay consistent over every edit history | Graph state, all edit calls as `step` | invariant `Wf` by induction over operation lists (Lemmas/Graph) | `C01_digraph_views` | all histories, including raising calls |
| C02 | proved | Undirected views stay consistent and symmetric over every edit history without del_node | same | invariant for undirected graphs: symmetry of neighbour lists, at most one orientation of each edge | `C02_undirected_views` | histories without del_node, as stated |
| C03 | proved | The edit API behaves like a plain set of nodes and edges | same | refinement (Lemmas/Refine): every call simulates the call on an abstract set of nodes and edges (Spec/AbsGraph) | `C03_refines_simple_graph`, `C03_counts` | undirected del_node excluded (see C05) |
| C04 | proved | A raising edit call leaves the graph unchanged | same | case analysis of every raising path; the model returns the state after an exception | `C04_raising_call_changes_nothing` |  |
| C05 | partial | del_node works on undirected graphs | `del_node`, undirected branch | negation for all graphs, with a witness of the corrupted state; `_partial`: what does hold | `C05_false_always_raises`, `C05_false_corrupts`, `C05_lists_after_failure_partial` | false of the code: every undirected del_node raises; negation proved |
| C06 | proved | del_node on a digraph removes exactly the node and its incident edges | `del_node`, directed branch | exact description of the state after the call | `C06_del_node_exact` |  |
| C07 | proved | Attribute reads return the last write and nothing else moves | `set_/get_` `node/edge_attr` | frame and read-over-write lemmas on dictionaries | `C07_reads_return_last_write`, `C07_cost`, `C07_capacity`, `C07_demand`, `C07_number`, `C07_flow`, `C07_get_node` | C07_cost, C07_capacity, C07_demand, C07_number and C07_flow say what the hypotheses on costs, capacities, demands and flows in the other claims mean. |
| C08 | proved | search without destination returns a search tree of exactly the reachable nodes | `search`, `process_edge_search`; the queue is a parameter | loop invariant (Lemmas/SearchBag) with fuel measure; keys of `pred` = reachable nodes | `C08_search_tree` | for every queue satisfying LawfulBag that is not a PriorityQueue; fuel bound = nodes + sum of degrees + 2; links leading back needs no self loops for algo='DFS' |
| C09 | proved | search with destination returns a path iff one exists | same | same invariant plus acyclicity of the `pred` links; witness that a self loop makes the code loop | `C09_search_path`, `C09_self_loop_diverges` | C09_self_loop_diverges shows the exclusion of self loops is necessary: the real code loops forever |
| C10 | proved | BFS search finds shortest unweighted paths | same with `LawfulFIFO` | level invariant of the queue; least length over all walks | `C10_bfs_shortest` | for every LawfulFIFO queue |
| C100 | proved | DEPTH_FIRST takes a deepest node | the same; states at the head of the loop | invariant for the priorities of the entries | `BB.C100_depth_first` |  |
| C101 | partial | BEST_FIRST takes a node with the best bound | the same | false: two turns of a concrete instance, whose bounds and answers are proved right; for every state the bound of the entry taken is least | `BB.C101_not_best`, `BB.C101_bounds`, `BB.C101_least_bound_partial` | False: the queue gives the least priority, which is the worst bound, since the problem is a maximisation. The partial theorem says so for every state. |
| C102 | partial | what branch and bound prints is a solution | the same | false: maximise -10000 x with x ≥ 1; with a solution above -9999 it follows from C97 | `BB.C102_sentinel`, `BB.C102_printed_partial` | False without a solution above -9999; otherwise true. |
| C103 | partial | HighestLabel takes a node of greatest distance | `max_flow_preflowpush` with a parameter for the queue; states at the head of the loop | invariant for the priorities; false: a network with six nodes, with every lawful priority queue | `C103_highest_partial`, `C103_not_highest` | False: the neighbours of the source are put into the queue with priority -1 whatever their distance. True for all other nodes, so from the turn on at which the neighbours of the source have been taken. |
| C104 | partial | network_simplex works for names of any kind | `network_simplex` once more, with `int()` on names as a parameter and a tag for every object that the identity tests of `simplex_identify_cycle` compare (`Model/SimplexNames.lean`); only the names of nodes are objects, flows and costs compare by value | refinement: with integers and one object per name it is the model of C36-C38 and C60-C66; false otherwise: names that are no integers never give an answer (ValueError or AttributeError, proved for all such networks; ValueError on connected ones as soon as one name has no number), and two integer networks on which equal but not identical names give KeyError and Exception | `C104_integer_names_partial`, `C104_other_names`, `C104_no_numeral`, `C104_some_without_number`, `C104_numeral`, `C104_identity` | False: with names that are no integers it never returns True (ValueError or AttributeError when there is a feasible flow; ValueError on a connected network as soon as one name has no number); with integers that are equal but not identical objects it can raise KeyError or Exception. Proved for integers with one object per name. |
| C105 | partial | arcs without capacity are unbounded | `max_flow`, `max_flow_preflowpush`; `Graph.capOf` reads 10000 where no capacity is given | from C86: a minimum cut that is smaller than 10000 has no arc without capacity; false: two arcs in a row, for every bag | `C105_free_arcs_partial`, `C105_false` | False when more than 10000 can be sent through an arc without capacity, because 10000 is stored for it. Proved when a cut of arcs with capacities has at most 10000, or the value found is less than 10000. |
| C106 | proved | the forestry example finds a best harvest plan | `forestry.py` as a list of calls with the data as parameters (`Model/Forestry.lean`); labels kept, drawing left out | what lists of `add_node` and `add_edge` leave (by the refinement of C01); flows and harvest plans (`Spec/Harvest.lean`, without graphs) correspond; then C105 | `Forestry.C106_forestry`, `Forestry.C106_bound_needed` | C106_bound_needed shows that the bound on the total demand is needed |
| C107 | proved | the flows solve the linear programs | `min_cost_flow`, `max_flow`; the linear programs are specified in `Spec/LinearFlow.lean` over an ordered field | a flow of least cost among the integral ones leaves no negative cycle in the residual graph (a negative closed walk contains a negative cycle), the distances of `floyd_warshall` bound the walks, least walk costs are potentials, and potentials prove optimality by duality; for `max_flow` by a cut that is full | `C107_min_cost_flow_lp`, `C107_max_flow_lp` | for values in every ordered field; connected problems as in C63 |
| C108 | proved | an infeasible problem has an overloaded set of nodes | `find_feasible_flow` | a minimum cut of the network with the extra nodes, translated back; conversely the sum of the balances of the set | `C108_infeasible_certificate` |  |
| C109 | proved | network simplex fails on networks that are not connected | `network_simplex` with `simplex_redraw`, as for C38 | `simplex_find_tree` returns a forest without the hypothesis of connectedness; an arc apart from the root is in the forest (then `simplex_redraw` raises) or outside it (then the potential of its tail is still None, and both `simplex_optimal` and the choice of the entering arc read it) | `C109_not_connected`, `C109_both_occur` | no potentials from earlier calls; networks whose only parts apart are single nodes without arcs are not covered |
| C11 | proved | Dijkstra search finds cheapest paths | `process_edge_dijkstra` with `LawfulPQ` | Dijkstra invariant (Lemmas/SearchPQ): settled nodes have least cost over all walks | `C11_dijkstra`, `C11_self_loop` | for every LawfulPQ (any tie-breaking), forward search, graphs without self loops; C11_self_loop shows that the exclusion is needed |
| C110 | partial | generate_graph makes minimum cost flow problems | `generate_graph` of `simplex_test.py` (`Model/SimplexTest.lean`); the random numbers are a parameter | invariant of the double loop through the refinement of C01; the sum over the nodes is exchanged with the sum over the amounts; witness with one arc | `C110_generate`, `C110_sum`, `C110_in_scope_partial`, `C110_not_balanced` | False in general: a chosen node need not be in the graph, then the demands are not balanced (witness). The rest is proved for all draws, and balance when all chosen nodes exist. |
| C111 | proved | the network simplex of simplex_test.py agrees with the one of the library | `mGraph.network_simplex` of `simplex_test.py`, next to `network_simplex` | the two loops are equal state by state on connected problems; elsewhere as in C109 | `C111_same`, `C111_cycle_apart`, `C111_no_root` |  |
| C112 | partial | the script that compares network simplex with an LP solver reports what it found | `solve`, `get_obj_value` and the loop of `simplex_test.py`; the LP solver is a parameter that returns the optimal value where there is one; times and files left out | the rows of the program are permutations of the arcs at a node, so its solutions are those of C107; C107 and C111; induction over the seeds; witness with an ideal solver and two seeds | `C112_script_partial`, `C112_program`, `C112_message`, `C112_message_false` | False: the message depends on the last problem only (C112_message), and is printed although an earlier problem has no solution and the values differ (C112_message_false). Proved if all the problems are connected and contain node 0 and the chosen nodes. |
| C113 | proved | network simplex never returns a wrong answer, connected or not | `network_simplex` and `min_cost_flow`, as for C38 | the invariants of C38 for a spanning tree of a set of nodes that carries all arcs; if the first forest joins the root with the ends of all arcs it is such a tree, otherwise an end of an arc has no potential or an arc of the forest is not drawn, as in C109 | `C113_any_network`, `C113_joined`, `C113_default_root`, `C113_first_node` |  |
| C114 | proved | max_flow with a queue needs a number of augmentations that does not depend on the capacities | `max_flow`, as for C26 and C27, with a first-in first-out queue | the search gives each explored node a level, which is its distance in the residual network; distances never fall, and for each ordered pair of ends half of the distance of the tail (or of the head plus one when there is no residual capacity) never falls and grows when the pair is used up; the sum of these is bounded by |E|(|V|+1) | `C114_bfs_passes`, `C114_bfs_maximum` |  |
| C115 | proved | fifo_label_correcting takes at most n(n-1)+1 nodes out of its queue | `fifo_label_correcting`, as for C39 | the queue is split into what is left of the present pass and what comes in the next one; the pass in which a label was last corrected is at most one more than that of its predecessor, so a label corrected in pass k has a chain of k predecessors, and the chains have no repetition until a cycle is found | `C115_label_correcting_turns` |  |
| C116 | proved | The iterations of max_flow_preflowpush are bounded without the capacities | `max_flow_preflowpush`, as for C64 | the measure of C64: sum of the labels; then (2n+3) times the number of arcs along which flow can be pushed plus the sum of the labels of the nodes with excess; then the queue | `C116_preflow_iterations` |  |
| C117 | partial | The value of the type argument decides whether a graph is directed | the constructor, `add_edge` and `del_node` once more with the identity and equality tests on `self.graph_type` apart (`Model/GraphType.lean`); the other edit calls test identity with DIRECTED_GRAPH only | for the constants each call equals that of `Model/Graph.lean`, by induction over the history; otherwise an invariant of the calls, then the steps of `add_edge` | `C117_constants_partial`, `C117_false_add_edge` | False: the object is compared by identity, so with an equal string that is another object (read from a file, say) every add_edge raises AttributeError after entering the edge (all histories without del_node). Proved for the constants themselves. |
| C118 | partial | The text of to_string with clusters reads back as the graph and its clusters | `to_string` as for C46 and C59, now with clusters; the reader of `Spec/Dot.lean` is extended in `Spec/DotSub.lean` by `subgraph name { ... }` and `node [ ... ];` | each statement is read as one item because no name that is written begins with a keyword as a whole word; then induction over the statements of a cluster and over the clusters; the edges of a cluster are the pairs of its nodes that are edges. The negation is two texts that no bound of the reader accepts | `C118_clusters_read_back_partial`, `C118_false` | False: of the cluster attributes only the label is quoted, so color='light blue' or '#0000ff' on a cluster gives a text that is no DOT graph. Proved when the other cluster attributes need no quotes, for the clusterings for which C46 holds. |
| C119 | partial | Kruskal's algorithm accepts a disjoint set | `minimum_spanning_tree_kruskal` with the argument `components`, `DisjointSet` as for C23 | the two runs, with the fresh set and with the given one, are compared step by step: both sets relate the nodes exactly as the edges taken so far join them, so each union gives the same answer. For the negation, `add` of an existing item raises | `C119_given_components_partial`, `C119_false` | False when a node of the graph is already an item of the set: components.add raises MultipleNodeException for every such set and graph, so a partition cannot be given and a set cannot be used twice. Proved for every set without such items: the result is that of the call without components, and the set ends as the partition into the trees. |
| C12 | proved | Prim search returns a minimum spanning tree | `process_edge_prim` with `LawfulPQ` | Prim invariant: chosen links extend to a minimum spanning tree (exchange argument, Lemmas/SpanTree) | `C12_prim_search`, `C12_self_loop` | for every LawfulPQ; negative costs allowed; graphs without self loops, C12_self_loop shows that the exclusion is needed |
| C120 | partial | dfs and acyclic_shortest_path can be called again | `dfs` and `acyclic_shortest_path`, as for C17 and C19, from any values of the node attributes | the invariant of C17 for any state in which the root has no discovery time, which does not matter because the root is always entered; new nodes are reached through undiscovered ones, by induction over the recursion. For the negations, after a first call every successor has a discovery time | `C120_dfs_any_state_partial`, `C120_false`, `C120_false_acyclic` | False: discovery times are never reset, so a second dfs from a node that the first one reached visits this node only, and a second acyclic_shortest_path raises IndexError (for every acyclic digraph of two or more nodes that C19 is about). Proved: what dfs visits from any state. |
| C121 | partial | dfs and label_strong_component work on graphs of any size | `dfs`, `strong_connect`, `tarjan`, `label_strong_component`; the fuel of the recursion is the limit on nested calls and `diverge` is RecursionError. What else is on the stack of Python is not counted | a larger limit does not change a result (induction over the recursion); a call with limit f discovers only nodes less than f edges away; with C17 and C15 all reachable nodes are discovered. For the negation, a chain | `C121_dfs_depth_partial`, `C121_strong_depth_partial`, `C121_false` | False: for every limit there are a digraph and an undirected graph with one node more than the limit on which both methods raise RecursionError. Proved: with at most as many nodes as the limit both methods never raise it; if a node is as many edges away from the root (the first node) as the limit, they always do; otherwise the result is that without a limit or RecursionError. |
| C122 | proved | The recursion of the binary tree methods is as deep as the tree | `print_nodes`, `printexp`, `postordereval` as for C42, C54 and C44; the fuel is the limit on nested calls and `diverge` is RecursionError | structural induction on the abstract tree, for all limits at once | `C122_print_nodes`, `C122_printexp`, `C122_postordereval` | The limit counts the nested calls of the method itself. |
| C123 | proved | BB.py branches on the variable that the rule asks for | the body of the loop of examples/BB.py, as for C97; the queue and the solver are parameters, the solver is correct on programs over VARIABLES | `min(x - floor(x), ceil(x) - x)` is the distance to the nearest integer; the loop of MOST_FRAC keeps the first maximum (induction over VARIABLES); case analysis of a turn | `BB.C123_branching` |  |
| C124 | proved | search colours exactly the tree or path that it found | `search`, `process_edge_search`, `process_edge_dijkstra`, `process_edge_prim` with the edge attribute `color` and the node attribute `label` kept (`Model/SearchPic.lean`), for any bag-like queue; not modelled: `depth`, and the pictures shown on the way | erasing the two columns gives the model of C08 (simulation); invariant of both loops: the green edges are the edges to nodes taken out of the queue from their predecessors, predecessors are taken out, so an edge to a node still waiting is never one of them; the path follows predecessors | `C124_search_picture`, `C124_self_loop` | the second theorem shows that the exclusion of self loops is needed |
| C125 | partial | search labels the nodes with what it found | as for C124 | invariants of the same loops relating label with component, distance, or priority (in the queue while waiting, in the attribute afterwards); with C10 and C11 for least numbers and costs. For the negation, BFS over a priority queue on a small graph | `C125_false`, `C125_search_labels_partial`, `C125_bfs_labels_partial`, `C125_dijkstra_labels_partial` | false of the code for BFS and DFS over a PriorityQueue: labels stay '-'; proved for the other cases |
| C126 | proved | the picture that max_flow leaves shows a minimum cut, the flow and the capacities | `max_flow` with the attributes `color` of nodes and edges and `label` of edges kept (`Model/MaxFlowPic.lean`), for any bag-like queue; labels of arcs whose capacity is not an integer and the pictures shown on the way are not modelled; nothing is claimed of the label of an arc that is given the capacity 10000 (the constant INF), which is '10000/0' until a path uses the arc and 'INF/x' afterwards | erasing the columns gives the model of C26 (simulation); invariant of the search: nodes explored are blue, an arc looked at from an expanded node whose other end stayed unexplored has the colour of a full arc (forward) or of an empty one (backward); the labels follow the flow through each augmentation; flow value = cut capacity as for C86 | `C126_max_flow_picture` |  |
| C127 | proved | dfs shows the depth-first tree and the times | `dfs` with transpose=False, with the attributes `color` and `label` kept (`Model/DfsPic.lean`); the pictures shown on the way are not modelled | erasing the columns gives the model of C17 (simulation); the effect of a call is described by the set of nodes it visits, effects of consecutive calls compose (induction over the recursion); with C17 and C90 the set is what can be reached and the links are the depth-first tree | `C127_dfs_picture` |  |
| C128 | proved | Kruskal's algorithm colours the edges that it took and refused | `minimum_spanning_tree_kruskal` without argument, with the edge attribute `color` kept (`Model/MstPic.lean`) | erasing the colours gives the model of C22; induction over the sorted list of edges | `C128_kruskal_picture` |  |
| C129 | proved | Prim's algorithm colours the tree and labels the nodes with the costs | `minimum_spanning_tree_prim` with edge `color` and node `label` kept (`Model/MstPic.lean`), for any lawful priority queue | erasing the columns gives the model of C20; invariant of both loops: edges to nodes taken out of the queue from their predecessors are green, other edges looked at are black, labels are the costs of the links; with C20 all nodes reached are taken out | `C129_prim_picture` |  |
| C13 | partial | bfs() labels nodes with breadth-first distances | `bfs` | negation witness (it runs a depth first search); `_partial`: exactly the reachable nodes are labelled | `C13_false`, `C13_bfs_marks_reachable_partial` | claim is false of the code: bfs() runs search with algo='DFS'; proved instead that exactly the reachable nodes get a distance |
| C130 | proved | max_flow_preflowpush leaves a picture of the maximum flow | `max_flow_preflowpush` with the node attribute `label` and the edge attributes `color`, `label` kept (`Model/PreflowPic.lean`); the pictures shown on the way are not claimed about | one equation per function: started with the picture of the current columns, it ends like the function of `Model/Preflow.lean` with the picture of the columns at its end (every change of flow, excess and distance is followed by show_flow); then C28 and conservation | `C130_preflow_picture` | for runs that return; see C64 for when they do |
| C131 | proved | the distances left by max_flow_preflowpush show a minimum cut | `max_flow_preflowpush` (`Model/Preflow.lean`) | the invariant of C28 (validity of the labels) at the end of the run; pigeonhole for the existence of a gap, weak duality for minimality | `C131_preflow_distances_show_cut` | for runs that return; see C64 for when they do |
| C132 | proved | network_simplex leaves a picture of the minimum cost flow and of its spanning tree | `network_simplex` with the edge attributes `color` and `label` kept (`Model/SimplexPic.lean`); the pictures shown on the way are not claimed about, nor the drawing of the tree | one equation per function: started with the picture of the current flow and tree, the loop ends like that of `Model/Simplex.lean` with the picture of the flow and tree at its end; a pivot changes the flow only on a cycle of tree arcs and the entering arc, all of which are in the new tree or leave; then C38 | `C132_simplex_picture` | for runs that return; see C62 for when they do |
| C133 | proved | The PageRank equations have exactly one solution and page_rank finds it | `page_rank` (`Model/Misc.lean`) over the rational numbers | `x - M x` is an injective linear map on a finite-dimensional space, because the columns of M add up to at most d < 1, so it is surjective; the lower bound by the same contraction applied to the negative parts; the rest from C57 | `C133_page_rank_solution` | over the rational numbers |
| C134 | partial | Page ranks add up to one | `page_rank` (`Model/Misc.lean`) over the rational numbers | the columns of M add up to exactly d for nodes with outgoing arcs and to 0 for the others, so the sum of the solution is 1 - d/(1-d) * (rank of the nodes without outgoing arcs); C133 for existence and positivity, C57 for the returned table | `C134_ranks_add_up_partial`, `C134_dangling_loses` | false of the code: a node without outgoing arcs loses its rank (proved for every such digraph); proved for digraphs in which an arc leaves every node |
| C135 | partial | cycle_canceling ends | `cycle_canceling` (`Model/MinCost.lean`) | every cancelled cycle of negative cost has capacity at least 1 and lowers the integral cost by at least 1; the costs of two flows within the bounds differ by at most the sum of |cost| * capacity; the answer from C36 | `C135_cancel_ends_partial`, `C36_may_not_terminate` | false of the code: the loop can run for ever because get_negative_cycle may return a cycle that is not negative (C36_may_not_terminate, C35_false_cost); proved up to exactly that defect, with a bound on the rounds |
| C136 | proved | distances, components and diameter are those of the simple graph | `search`, `label_components`, `get_diameter` | walks of the model and walks of Mathlib's SimpleGraph give each other (self loops are dropped), so the specifications of C10, C14 and C48 agree with SimpleGraph.dist, ConnectedComponent and diam | `C136_distances`, `C136_components`, `C136_diameter` |  |
| C137 | proved | the spanning tree methods return trees of least cost in the sense of SimpleGraph | `minimum_spanning_tree_kruskal`, `minimum_spanning_tree_prim` | connected with n-1 edges is a tree (Mathlib); trees of Mathlib are listed as spanning trees in the sense of C20, C22 and back, with the same cost | `C137_kruskal`, `C137_prim` |  |
| C138 | partial | a source or sink that is not in the graph is refused | the first steps of the traversals, shortest path, spanning tree and flow methods on a name without node, with the kind of exception | false for the sink of max_flow: the search never meets it, so the first round ends with the zero flow (invariant of the search: only nodes get a predecessor); the other methods fail at the first access to the node | `C138_missing_source_partial`, `C138_missing_sink_unnoticed`, `C138_source_is_sink` | False for the sink of max_flow: C138_missing_sink_unnoticed proves that it returns the zero flow for a sink that is not a node. Proved for all the other methods and names. For Prim the queue is empty at the call. |
| C139 | proved | a maximum flow is a largest family of paths | max_flow as for C27; routes and families of routes are lists of arcs (Spec/Routes.lean) | the flow is written as a list of arcs with repetitions; a walk from a node with a surplus of arcs can only end in the sink (induction over the remaining arcs); walks are shortened to paths; conversely counting the arcs of a family gives a flow | `C139_most_paths`, `C139_preflow_paths` | A family of routes is a list of lists of arcs (Spec/Routes.lean), independent of flows. For preflow push the statement is about the calls that return (C64 and C116 say when). |
| C14 | proved | label_components labels exactly the connected components | `label_components` over `search` | induction over the node list using C08 | `C14_label_components`, `C14_digraph_raises` |  |
| C140 | proved | with capacities 1, max_flow finds arc-disjoint paths and a smallest set of separating arcs | as C139, all capacities 1 | C139; the arcs that leave the set of reached nodes separate and are as many as the value; disjoint paths need one separating arc each | `C140_disjoint_paths`, `C140_preflow_disjoint` | Digraphs without antiparallel arcs, capacities 1; for max_flow_preflowpush: whenever it returns (see C64). |
| C141 | proved | the forestry script builds and labels the network of the problem | forestry.py: the calls of add_node and add_edge with their attributes (`Model/Forestry.lean`) | invariant over a list of calls that name new nodes and arcs (Lemmas/Script): nodes are those named, attributes those given; then the five kinds of calls | `Forestry.C141_forestry_network` | Attributes of the graph itself (layout) are not modelled. |
| C142 | proved | the potentials that network_simplex leaves solve the dual linear program | network_simplex with the attribute `potential` it leaves (`networkSimplexPi`) | invariant of the main loop: potentials set on all nodes of the tree, 0 at the root, reduced cost 0 on tree arcs; simplex_optimal gives the signs elsewhere; weak and strong duality by exchanging sums | `C142_potentials_solve_dual` | Says nothing if the pivots do not suffice (C62, C113 say when they do). |
| C143 | proved | page_rank() with its default arguments always converges | page_rank over the rational numbers | the weighted distance to the solution shrinks by the factor d in each sweep (Lemmas/PageRank); first distance at most 2; so the change in sweep k+1 is at most 2(1+d)d^k/(1-d); then numbers | `C143_page_rank_iterations`, `C143_defaults_converge` | Rational arithmetic; the rounding of floats is not modelled. |
| C144 | partial | Clusters keep what they were made from, whatever the caller does with the objects later | create_cluster on objects: a heap of dictionaries and lists, steps that change them, clusters holding the list by reference and copies of the dictionaries (`Model/Clusters.lean`); values inside a dictionary are not objects | simulation: with no list changed after it was given, the clusters seen through the heap are those that the model on values (C50) makes from snapshots of the arguments; the two ways to fail directly from the definition | `Misc.C144_clusters_keep_partial`, `Misc.C144_dict_reused`, `Misc.C144_list_shared`, `Misc.C144_false_dict`, `Misc.C144_false_list` | False of the code as stated: C144_dict_reused and C144_list_shared show for all states how it fails, with witnesses. Proved for callers that change no list after giving it away and whose names at the times of the calls differ; dictionaries may be shared and changed freely. |
| C145 | partial | Arcs can be deleted in a loop over the out-neighbours of a node | a loop of a caller over the list that get_out_neighbors returns, which is the one that del_edge changes; a for statement keeps an index and looks at the list anew (`Model/Live.lean`) | invariant of the loop: the list is (arcs passed over) ++ (arcs to come) with the index at the border; each iteration deletes one and passes over the next | `C145_live_loop`, `C145_delete_all_partial`, `C145_false` | False of the code as stated: C145_live_loop says for all digraphs exactly which arcs remain. Proved for a loop over a copy of the list and for at most one arc (and only then). |
| C146 | proved | A graph can be emptied in a loop over get_edge_list or get_node_list | loops of a caller over get_edge_list and get_node_list, which are copies (`Model/Live.lean`) | invariant of the loop: the edges (nodes) of the graph are exactly those still to come; well-formedness then gives empty lists of neighbours and the new graph | `C146_clear_edges`, `C146_clear_nodes` | get_edge_list and get_node_list return new lists, so the loops run over snapshots. |
| C147 | proved | del_edge undoes add_edge and del_node undoes add_node | add_edge, del_edge, add_node, del_node on the whole state (`Model/Graph.lean`) | closed forms of the calls (Lemmas/Graph); dictionaries with the same keys in order and the same values are equal; removing what was appended gives the old list since it was not there before | `C147_del_edge_undoes`, `C147_del_node_undoes` | Equality of the whole state of the model, including orders. |
| C148 | proved | search trees are trees, and those of BFS keep the distances | search without destination, the returned dictionary of predecessors | the links connect, are one fewer than the nodes (the source has none), hence a tree (C137); chains of links have the length of the BFS label, which is the least number of edges (C10) | `C148_bfs_tree`, `C148_search_tree` | The tree is SimpleGraph.IsTree, the distances are SimpleGraph.dist. |
| C15 | proved | label_strong_component labels exactly the strongly connected components of a fresh graph | `tarjan`, `strong_connect`, `label_strong_component` | recursive invariant of Tarjan's algorithm (Lemmas/Tarjan) | `C15_strong_components` | Python's recursion limit not modelled |
| C16 | partial | label_strong_component can be called again after edits | same | negation for all graphs: a second call relabels nothing; `_partial` | `C16_relabel_unchanged_partial`, `C16_false_relabel_does_nothing`, `C16_false_concrete` | false of the code: 'index' is never reset, so a second call changes no label of an indexed node, restarts the labels at 0 and sets num_components to 0; proved for all graphs. Proved: without edits the labels stay right |
| C17 | proved | dfs visits exactly the reachable nodes with unique times | `dfs`, `transpose=False` | recursive invariant `DRes` (Lemmas/Dfs) | `C17_dfs_times` | transpose=False; Python's recursion limit not modelled |
| C18 | proved | dfs produces a topological order on acyclic graphs | same | `DRes.topo`: edges against the order close a cycle | `C18_topological_order` |  |
| C19 | proved | acyclic_shortest_path returns cheapest paths on DAGs | `acyclic_shortest_path` | relaxation along the topological order of C18 | `C19_acyclic_shortest_path`, `C19_predecessors` | integer costs; with and without a destination |
| C20 | proved | minimum_spanning_tree_prim returns a minimum spanning tree on fresh graphs | `minimum_spanning_tree_prim` | loop invariant with exchange argument | `C20_mst_prim` | no node green beforehand (e.g. no colours at all); queue laws of blimpy's PriorityQueue assumed (Spec/Queue.lean) |
| C21 | partial | minimum_spanning_tree_prim does not depend on earlier calls | same | negation for all graphs (colours are never reset); `_partial` | `C21_mst_prim_history_partial`, `C21_false_second_call_empty`, `C21_false_concrete` | false of the code: colours are never reset, so a second call returns the empty dictionary; proved for all graphs. Proved: only the set of green nodes matters |
| C22 | proved | Kruskal returns a minimum spanning tree | `minimum_spanning_tree_kruskal` over `DisjointSet` | exchange argument on the sorted edge list; refinement of C23 | `C22_kruskal` | integer costs; the sort is modelled as a stable insertion sort by cost |
| C23 | proved | DisjointSet.find agrees exactly with the unions made so far | `DisjointSet` on the graph model | refinement to the equivalence generated by the unions (Lemmas/Forest) | `C23_find_same` | items added must be fresh; Python's recursion limit not modelled |
| C24 | proved | DisjointSet.union returns True iff it merged, and sizes are exact | same | sizes = class sizes (Lemmas/ForestSize) | `C24_union_sizes` |  |
| C25 | proved | DisjointSet trees are logarithmically shallow with optimize | same | rank argument: 2^height <= size | `C25_log_depth` |  |
| C26 | proved | max_flow returns a feasible flow | `max_flow` | conservation and bounds kept by every augmentation (Lemmas/MaxFlow) | `C26_max_flow_feasible` | antiparallel arcs and self loops allowed |
| C27 | proved | max_flow terminates with a maximum flow | same | max-flow/min-cut (Spec/Flow) and an integral bound on augmentations; witness for antiparallel arcs | `C27_max_flow_maximum`, `C27_antiparallel_arcs_matter` | the stated condition, no antiparallel arcs, is shown to be needed; total: the fuel bound is explicit |
| C28 | proved | max_flow_preflowpush returns a maximum flow | `max_flow_preflowpush`, `process_edge_flow`, `relabel` | preflow invariant, valid labels, no excess left at the end; divergence witness for antiparallel arcs | `C28_preflow_max`, `C28_antiparallel_diverges` | for every lawful queue and each algo: no exception, and whenever the loop ends the flow is maximum; the second theorem shows that without the hypothesis on antiparallel arcs the loop never ends |
| C29 | proved | The two max flow methods agree | both max flow methods | both values equal the least cut | `C29_max_flow_agree` | whenever preflow-push returns |
| C30 | proved | create_residual_graph is the exact residual network | `create_residual_graph` | exact arc set, capacities and costs; witness for antiparallel arcs | `C30_residual_graph`, `C30_antiparallel_raises`, `C30_undirected_raises` | the second theorem shows that antiparallel arcs must be excluded |
| C31 | proved | augment_cycle by at most the cycle capacity keeps a flow feasible and changes cost by amount times cycle cost | `augment_cycle`, `find_cycle_capacity` | sums over the arcs of a cycle | `C31_augment_cycle` |  |
| C32 | proved | floyd_warshall distances are exact when it reports validity | `floyd_warshall` | invariant over the triple loop: cheapest walks through the first k nodes | `C32_floyd_warshall_exact` | diagonal entries included except for nodes with a self loop |
| C33 | proved | floyd_warshall validity flag detects negative cycles exactly | same | same invariant, with a shortest negative cycle argument | `C33_floyd_warshall_valid` |  |
| C34 | partial | floyd_warshall_get_path returns a shortest path | `floyd_warshall_get_path` | negation witness; `_partial`: exact description of the list returned | `C34_get_path_partial`, `C34_false` | false of the code: each inner node is listed three times. Proved: the list is a cheapest path with each inner node written three times |
| C35 | partial | get_negative_cycle returns a genuine negative cycle | `floyd_warshall_get_cycle`, `get_negative_cycle` | negation witnesses; `_partial` | `C35_negative_cycle_partial`, `C35_false_cost`, `C35_false_exception`, `C35_false_self_loop` | false of the code: with several negative cycles the cycle returned may have positive cost, or Exception is raised; a negative self loop gives KeyError. Proved: None iff no negative cycle, any list returned is a cycle, no other failures |
| C36 | proved | cycle_canceling ends only in a minimum cost flow | `cycle_canceling` | optimality from absence of negative residual cycles; divergence witness | `C36_cycle_canceling`, `C36_may_not_terminate` | about calls that return; the second theorem gives a network on which the method loops for ever |
| C37 | proved | find_feasible_flow decides feasibility and restores the graph | `find_feasible_flow` | reduction to C27 on the extended network; restoration of the graph | `C37_find_feasible_flow`, `C37_supply_needed` | total: the call returns; the second theorem shows that a supply node is needed |
| C38 | proved | Network simplex stops only at a minimum cost flow | `network_simplex` as a whole | potentials certify optimality (Lemmas/SimplexPot), pivots keep the invariant | `C38_optimality_test`, `C38_network_simplex` | The test as stated, and the whole method: for every number of pivots network_simplex raises nothing and returns only a feasible flow of least cost, or False when there is none. |
| C39 | partial | fifo_label_correcting computes shortest paths | `fifo_label_correcting` and helpers | negation for all graphs under Python 3 comparison; full proof with the comparison as a parameter that behaves as in Python 2 | `C39_fifo_partial`, `C39_python3_partial`, `C39_false` | False under Python 3: 'inf' > int raises TypeError whenever the source has an arc to another node. Proved in full for the comparison of Python 2; under Python 3 every call raises TypeError or returns what it should. |
| C40 | proved | Tree building keeps a rooted tree | `Tree` | invariant over operation lists | `C40_rooted_tree` | The root is given no attribute called 'parent'. |
| C41 | partial | Tree.traverse visits every descendant exactly once | `Tree.traverse`, `dfs`, `bfs` | loop invariant against an inductive tree; negation for the default root | `C41_traverse_partial`, `C41_root_omitted_raises` | False when root is omitted: the Node object self.root is looked up among names and KeyError is raised (proved for all trees). For a given root everything is proved. |
| C42 | proved | print_nodes prints pre-, in- and post-order | `BinaryTree.print_nodes` | abstraction to an inductive binary tree | `C42_print_nodes` | Histories in which no insertion into a free slot reuses a name (see C43) and keyword arguments do not name children. |
| C43 | partial | A raising child insertion leaves the binary tree unchanged | `add_left_child`, `add_right_child` | negation witness; exact condition | `C43_raise_unchanged_partial`, `C43_false` | False: the slot of the parent is written before MultipleNodeException is raised (witness). Proved: exactly in that case the object changes. |
| C44 | partial | postordereval computes the value of the expression | `postordereval`, the four operators over the rationals | structural induction, exact for every expression: value or ValueError; negation witness (falsy values) | `C44_value_partial`, `C44_false` | False when a subexpression has the value 0 (witness 0+1). Proved exactly: the value is returned if no proper subexpression is 0, otherwise ValueError is raised. Rational numbers, all four operators. |
| C45 | partial | DOT identifiers are quoted so that the output reads back as the same string | `quote_if_necessary`, `needs_quotes` | DOT lexer in Spec/Dot; `C45_quote_exact`: necessary and sufficient condition, by induction over the string; negation witnesses; `_partial` for the strings it holds for | `C45_quote_partial`, `C45_quote_exact`, `C45_unquoted`, `C45_needs_quotes`, `C45_false` | False for the empty string, keywords, commas, quotes inside words or around the string, line ends, and some backslashes. C45_quote_exact: exactly which strings are read back. C45_unquoted: which characters get into the text without quotes. C45_needs_quotes: exactly which strings stay without quotes, in terms of the regular expressions of the code. |
| C46 | partial | to_string mentions every node and edge exactly once | `to_string` with clusters | statement lists; negation witnesses; `_partial` | `C46_to_string_partial`, `C46_cluster_attributes`, `C46_false` | False: KeyError for an undirected cluster with an inner edge, a node of two clusters is stated twice, TypeError for non-string cluster attributes (C46_cluster_attributes: exactly which values). Proved for the other clusterings. |
| C47 | partial | Degree reports are correct | `get_degrees` and variants | direct induction; negations | `C47_degrees_partial`, `C47_false` | False: get_degrees of a digraph returns None; all degree methods raise KeyError on a graph made without type. Proved for the remaining cases. |
| C48 | proved | get_diameter is the largest distance | `get_diameter` | C10 for every source | `C48_diameter`, `C48_not_undirected` | For graphs made with an explicit type (the method reads attr['type']); without it the call raises KeyError (C48_not_undirected). |
| C49 | proved | page_rank is total, covers the nodes and is bounded below | `page_rank` over the rationals | induction over sweeps | `C49_page_rank` | Over rational numbers. |
| C50 | partial | create_cluster adds a new cluster every time | `create_cluster` | negation witnesses (shared default dictionary); `_partial` | `C50_create_cluster_partial`, `C50_false` | False: the mutable default argument, names c<k> chosen by the user and repeated names make a call replace an earlier cluster. Proved for histories with different names and own dictionaries. |
| C51 | proved | random builds a simple graph within the requested bounds | `random`, density branch; the random numbers are a parameter | induction over the pairs | `C51_random` | Both density branches; in the Euclidean one edges get a cost exactly when length_range is None. |
| C52 | partial | hamiltonian decides whether a Hamiltonian path exists | `hamiltonian` | exact condition for the exception; negation for all graphs with a path; `_partial` | `C52_hamiltonian_partial`, `C52_false`, `C52_missing_source` | False: whenever the source has another neighbour (so whenever a Hamiltonian path exists, for 2 nodes or more) the call raises AttributeError because self.tsp does not exist; exact condition proved. Otherwise it returns False, which is right for 2 nodes or more. |
| C53 | partial | The display argument does not change the graph's display mode | `display` arguments of all methods | negation for all bodies; `_partial` | `C53_display_restored_partial`, `C53_false` | False for all methods that call set_display_mode(display). Proved for max_flow, print_nodes, BinaryTree.traverse returning normally. The bodies of the methods are arbitrary computations on the mode. |
| C54 | proved | printexp prints the infix form | `printexp` | structural induction; witness | `C54_printexp`, `C54_unbalanced` | Also a witness that with a missing right child the parentheses do not match. |
| C55 | proved | The binary tree calls refine an abstract binary tree | `BinaryTree` edits | simulation with an inductive binary tree, for calls in any order | `C55_refines_binary_tree` |  |
| C56 | proved | BinaryTree.traverse visits every descendant exactly once | `BinaryTree.traverse` | loop invariant on the stack/queue of subtrees | `C56_traverse` |  |
| C57 | proved | page_rank converges to the solution of the PageRank equations | `page_rank` | contraction in the 1-norm (Lemmas/PageRank) | `C57_page_rank_converges` | Over rational numbers. |
| C58 | partial | random with degree_range picks the requested edges | `random`, degree branch | induction over the rounds; negation witnesses | `C58_random_degree_partial`, `C58_false` | False without length_range (no edges) and without add_labels (MultipleEdgeException). Proved for the remaining arguments. Non-Euclidean branch. |
| C59 | proved | The text of to_string reads back as the graph | `to_string` as text | a DOT reader (Spec/Dot) inverts the printer | `C59_read_back` | For graphs without clusters. |
| C60 | proved | simplex_find_tree returns a spanning tree solution | `simplex_find_tree` and helpers | cycle breaking measure, spanning tree by connecting components | `C60_find_tree`, `C60_no_nodes` | C60_no_nodes shows that the hypothesis on nodes is needed |
| C61 | proved | A pivot keeps the spanning tree solution and never raises the cost | one pivot | exchange of tree arcs, cost change = amount times reduced cost | `C61_pivot` |  |
| C62 | partial | Network simplex terminates | the pivot loop | negation: a network with an arc of capacity 0 cycles; `_partial` under nondegeneracy | `C62_may_not_terminate`, `C62_terminates_partial` | False: on a network of three nodes with an arc of capacity 0 no number of pivots suffices (proved for every root and rule). Proved under nondegeneracy and positive capacities, with a bound on the pivots. |
| C63 | proved | min_cost_flow solves the minimum cost flow problem | `min_cost_flow` | C36 and C38 through the option handling | `C63_min_cost_flow`, `C63_scaled_raises` | For a root that is a node and the two implemented pivot rules; the documented rule 'scaled' raises (C63_scaled_raises). For cycle_canceling only about calls that return. |
| C64 | proved | max_flow_preflowpush terminates | `max_flow_preflowpush` | lexicographic measure on labels, saturating and other pushes | `C64_preflow_terminates` | explicit bound on the number of iterations, in the numbers of nodes and arcs |
| C65 | proved | The Dantzig rule takes an arc of greatest violation | `simplex_select_entering_arc`, 'dantzig' | fold over the violating arcs | `C65_dantzig` | exact: which arc, when none, and when simplex_optimal says True |
| C66 | partial | first_eligible takes the first eligible arc | same, 'first_eligible' | negation witness; `_partial`: the last eligible arc is taken | `C66_first_eligible_partial`, `C66_false` | false: the loop has no break, so the LAST eligible arc is taken; both proved |
| C67 | partial | dfs with transpose labels the nodes that reach the root | `dfs`, `transpose=True` | recursive invariant `TRes`; divergence and TypeError theorems; `_partial` | `C67_transpose_partial`, `C67_visit_order`, `C67_false_default`, `C67_false_no_times` | holds with a component number and finish times on all nodes; with the default component=None the call does not end when a cycle reaches the root, without finish times sorting raises TypeError |
| C68 | proved | Two passes of dfs label the strongly connected components | two loops of `dfs` calls | invariant on the finishing order (`DRes.anc`), suffixes of the order | `C68_two_passes` | the client program of two loops is part of the model; the number of components is returned |
| C69 | proved | find flattens the path it climbs | `DisjointSet.find` | path from the item to the root, frame for the other nodes | `C69_find_flattens` |  |
| C70 | proved | BFS over a PriorityQueue gives shortest paths by edges | `search` with algo BFS and a PriorityQueue | invariant of uniform costs (Lemmas/SearchUnit) on top of the search framework | `C70_bfs_pq` |  |
| C71 | partial | DFS over a PriorityQueue traverses the reachable nodes | `search` with algo DFS and a PriorityQueue | negation for all graphs with a node at distance two (induction over the loop); `_partial` for stars | `C71_dfs_pq_partial`, `C71_dfs_pq_raises` | false: TypeError as soon as a node is two edges away from the source (proved for every such graph); holds when the neighbours of the source lead only back to the source |
| C72 | partial | Weighted search in the reverse direction | `search`, reverse=True | negation for all digraphs with a one way arc into the source; `_partial`: undirected graphs | `C72_reverse_partial`, `C72_reverse_raises` | false on digraphs: KeyError as soon as an arc enters the source without an opposite arc; on undirected graphs reverse changes nothing |
| C73 | proved | simplex_redraw copies the tree of the root | `simplex_redraw` | invariant of the traversal (Lemmas/SimplexRedraw): nodes of the copy, waiting list, arcs still to come; every arc is copied at most once, which bounds the loop | `C73_redraw`, `C73_redraw_no_attrs` | attributes that are only drawn (labels, colours) are left out of the copy |
| C74 | proved | display changes only what it shows | `display`, `write`, `create`, `set_layout`; outside programs are fields of `Env` | a relation between states that every part of `display` keeps (`Allows`, Lemmas/Display), errors included | `C74_display_frame`, `C74_text_settings` | the outside programs are parameters; files that can be opened are assumed |
| C75 | partial | display restores the colour of highlighted nodes | `display` | exact colour after the call, by cases over the modes; negation for all colours other than red and black | `C75_highlight_partial`, `C75_highlight_lost`, `C75_C79_witness` | false: the colour becomes red (mode 'file', dot2tex) or black; exact result for every mode, and the negation for every other colour |
| C76 | partial | create and display leave no temporary files | `create`, `display` | the temporary files as state; three leaks proved, `_partial` for a Graphviz that works | `C76_create_partial`, `C76_create_leak`, `C76_display_partial`, `C76_display_leak`, `C76_click_leak` | false if Graphviz is missing or fails, or after a click on the window; holds if Graphviz works and the call returns |
| C77 | partial | Layout dot2tex writes a TeX file and returns | `display` with dot2tex, `set_layout` | negation for every graph without dot2tex; `_partial` with a working dot2tex | `C77_dot2tex_partial`, `C77_dot2tex_raises` | false: UnboundLocalError without dot2tex; holds if dot2tex works |
| C78 | proved | Mode file writes the picture | `display`, `write`, `to_string` | computation of the call, by cases over the answer of Graphviz | `C78_file`, `C78_file_fails` | Graphviz is a parameter |
| C79 | partial | display keeps mode and layout | `display`, `set_layout` | exact mode and layout after the call; concrete witness of the negation | `C79_mode_partial`, `C75_C79_witness` | false: a missing library switches the display off, dot2tex forces mode 'file'; the exact mode and layout after the call are proved |
| C80 | proved | repr shows every node with its neighbours | `__repr__` | induction over the nodes | `C80_repr` | str of a name and repr of a list are parameters |
| C81 | partial | print_flow prints the arcs with positive flow | `print_flow` | induction over the arcs; concrete witness of the negation | `C81_print_flow_partial`, `C81_positive`, `C81_negative` | false for negative flows, which are printed; holds for non-negative flows |
| C82 | proved | show_flow labels nodes and arcs | `show_flow` | induction over the nodes and the arcs of each node | `C82_show_flow` | the call of display at the end is C74-C79 |
| C83 | partial | simplex_mark_st_arcs uses five colours | `simplex_mark_st_arcs`, `simplex_mark_entering_arc`, `simplex_mark_leaving_arc` | induction over the arcs; concrete witness of two arcs that should differ | `C83_mark_partial`, `C83_between_bounds`, `C83_same_colour`, `C83_mark_arc` | false: only blue and black are used; exact result and the exception proved |
| C84 | proved | the spanning tree methods agree | `search`, `minimum_spanning_tree_prim`, `minimum_spanning_tree_kruskal` | C12, C20 and C22; the minimum does not depend on the order of the nodes | `C84_mst_methods_agree` | All three calls return and the costs are equal. |
| C85 | proved | the shortest path methods agree | `search`, `floyd_warshall`, `fifo_label_correcting`, `acyclic_shortest_path` | C11, C32, C33, C39, C19; the least cost of a walk is unique; non-negative costs exclude the negative cycles | `C85_shortest_path_methods_agree` | fifo_label_correcting with the comparison of Python 2, as in C39; under Python 3 it raises (C39_false). |
| C86 | proved | maximum flow equals minimum cut | `max_flow`, `max_flow_preflowpush` | the set of the nodes scanned last is a cut that the flow saturates; weak duality for every cut; C29 | `C86_max_flow_min_cut` | max_flow always returns; preflow-push is covered for the runs that return (C64 says when). |
| C87 | proved | the minimum cost flow methods agree | `min_cost_flow` | C63 for both runs | `C87_min_cost_methods_agree` | For the runs that return; C36 and C62 say when the methods may run forever. |
| C88 | proved | search over a stack is depth first | `search` over a stack | ghost state: visited nodes in order and the stack entries with the node that pushed them; a visited node with an unvisited neighbour is an ancestor of everything visited later; blocks of descendants are contiguous | `C88_search_dfs_tree`, `C88_no_cross_edges` | For every stack with the laws LawfulLIFO (proved of the model of blimpy.Stack, stack_lifo). Self loops are excluded as in C08. |
| C89 | proved | strong components are numbered in reverse topological order | `label_strong_component` | further field of the invariant of C15: edges out of a finished component lead to labels that are not larger | `C89_components_reverse_topological` | Same hypotheses as C15. |
| C90 | proved | dfs builds a depth-first tree with nested times | `dfs` | the run builds an ordered forest; its preorder gives the discovery times, its postorder the finish times; descendants are the nodes later in both orders | `C90_dfs_tree` | Same hypotheses as C17; the recursion limit of Python is not modelled. |
| C91 | proved | dfs finds the cycles | `dfs` | C90: finish times decrease along all edges iff there is no back edge | `C91_dfs_finds_cycles` | Same hypotheses as C17. |
| C92 | proved | Euclidean random graphs join every node with its nearest ones | `random` with `Euclidean`, `degree_range`, 'closest'; the rounded distances and the degrees drawn are parameters | stable sort gives the lexicographic order, so the first k elements are those with fewer than k before them; invariant of the loop over the nodes through the refinement of C03 | `C92_closest`, `C92_too_many` | Rounded distances are a parameter, any integers. An entry 'cost' in edge_format is excluded: Python raises TypeError for the repeated keyword. |
| C93 | partial | Euclidean random graphs with node_selection='random' have edges | the same with 'random' | false for every input with a positive degree; induction over the nodes | `C93_random_selection_partial`, `C93_false` | False: the variable in the body of the loop is never assigned, so the call raises UnboundLocalError as soon as a degree is positive (C93_false, all inputs). Proved when all degrees are 0. |
| C94 | partial | traverse calls without q do not influence each other | `Tree.traverse`, `BinaryTree.traverse` with the content of the shared default stack as state | children of nodes are nodes, so only the root of a call can raise, and then the stack is empty; negation witness | `C94_tree_calls_independent`, `C94_given_stack`, `C94_binary_calls_independent_partial`, `C94_false` | Proved for Tree, all reachable trees. False for BinaryTree: add_right_child stores the name of the child before it raises, del_node then leaves a child that is no node, and a traverse that raises on it leaves nodes on the shared stack (C94_false). Proved for binary trees in the scope of C55. |
| C95 | proved | postordereval prints the evaluation | `postordereval` with its output | induction over the abstract tree, next to C44 | `C95_eval_output` | Same hypotheses as C44; rational numbers for the floats of '/'. |
| C96 | partial | del_node of an inner node of a binary tree leaves a tree | `BinaryTree.del_node` | as C55 without the hypothesis that the node is a leaf | `C96_del_node_partial`, `C96_false` | False for every inner node (C96_false). What the call does to nodes, edges and the printed sequence is proved for all nodes other than the root. |
| C97 | proved | branch and bound finds an optimal solution | `examples/BB.py` as a whole (Model/BranchBound.lean): the data, the linear programs, the queue, the incumbent, the statuses, the branching rules, the tree through the model of `Tree`; the LP solver is a parameter that answers correctly, the priority queue one that gives an entry of least priority | invariant of the loop: the entries of the queue fix different variables, every solution not worse than LB is below an entry, the incumbent is a solution; potential 2^(n+1-depth)-1; an exact solver exists by Fourier-Motzkin elimination | `BB.C97_optimal`, `BB.C97_generated`, `LP.exists_exactSolver` | LP.exists_exactSolver shows that the assumption on the solver can be met for all variables. |
| C98 | proved | the search tree is a certificate | the same | the same invariant, with a certificate for every node of the tree | `BB.C98_search_tree` |  |
| C99 | partial | a node that has been branched is green | the same | false for every run; witness: maximise x with 2x ≤ 1, for every solver, queue and strategy | `BB.C99_not_green`, `BB.C99_stays_yellow_partial` | False: BB.py 381 sets an attribute whose name is the value of color. What is true: a branched node stays yellow and has an attribute 'yellow' with the value 'green'. |

## What is modelled

Every function of the three files, with the definitions of the model that cite it. In every modelled function output on
the screen, calls of `display` and attributes that are only drawn are left out.

| file | line | function | definitions of the model |
|---|---|---|---|
| graph.py | 107 | `handle_close` | not modelled |
| graph.py | 116 | `Node.__init__` | part of `Graph.addNode` |
| graph.py | 132 | `Node.get_attr` | `Graph.getNodeAttr` |
| graph.py | 147 | `Node.set_attr` | as column or dictionary updates |
| graph.py | 160 | `Node.to_string` | `Dot.nodeString` |
| graph.py | 183 | `Node.__repr__` | is `Node.to_string` |
| graph.py | 199 | `Graph.__init__` | `Graph`, `Graph.init`, `Graph.appendIn`, `GraphType.initT` |
| graph.py | 244 | `Graph.__repr__` | `Display.reprLines`, `Display.repr` |
| graph.py | 261 | `Graph.__contains__` | `Graph.hasNode`, `Graph.checkEdge` |
| graph.py | 281 | `Graph.add_node` | `Graph.addNode` |
| graph.py | 305 | `Graph.del_node` | `Graph.delOut`, `Graph.delIn`, `Graph.delInAll`, `Graph.delEntries`, `Graph.delNode`, `GraphType.delOutT`, `GraphType.delNodeT` |
| graph.py | 333 | `Graph.add_edge` | `Graph.ensureNode`, `Graph.addEdge`, `GraphType.addEdgeT` |
| graph.py | 367 | `Graph.del_edge` | `Graph.delEdge` |
| graph.py | 397 | `Graph.get_node` | `Graph.getNode` |
| graph.py | 412 | `Graph.get_edge_cost` | `Graph.getEdgeCost` |
| graph.py | 424 | `Graph.check_edge` | `Graph.checkEdge` |
| graph.py | 441 | `Graph.get_node_list` | `Graph.getNodeList`, `Live.clearNodes` |
| graph.py | 451 | `Graph.get_edge_list` | `Graph.getEdgeList`, `Live.clearEdges` |
| graph.py | 461 | `Graph.get_node_num` | `Graph.getNodeNum` |
| graph.py | 471 | `Graph.get_edge_num` | `Graph.getEdgeNum` |
| graph.py | 481 | `Graph.get_node_attr` | `Graph.getNodeAttr` |
| graph.py | 496 | `Graph.get_edge_attr` | `Graph.getEdgeAttr` |
| graph.py | 518 | `Graph.set_node_attr` | `Graph.setNodeAttr` |
| graph.py | 533 | `Graph.set_edge_attr` | `Graph.setEdgeAttr`, `SearchPic.Graph.edgeKey` |
| graph.py | 556 | `Graph.get_neighbors` | `Graph.getNeighbors` |
| graph.py | 570 | `Graph.get_in_neighbors` | `Graph.getInNeighbors` |
| graph.py | 584 | `Graph.get_out_neighbors` | `Graph.getNeighbors` |
| graph.py | 598 | `Graph.edge_to_string` | `Dot.attrList`, `Dot.edgeString` |
| graph.py | 627 | `Graph.to_string` | `Clusters.look`, `Display.text`, `Dot.clusterAttrs`, `Dot.clusterNodeAttrs`, `Dot.nodeStmts`, `Dot.edgeStmts`, `Dot.allPairs`, `Dot.clusterStmts`, `Dot.clustersStmts`, `Dot.processed`, `Dot.toStmts`, `Dot.attrString`, `Dot.render`, `Dot.toString` |
| graph.py | 694 | `Graph.label_components` | `Components.labelLoop`, `Components.labelComponents` |
| graph.py | 724 | `Graph.tarjan` | `Tarjan.tarjanLoop`, `Tarjan.tarjan` |
| graph.py | 743 | `Graph.strong_connect` | `Tarjan.pyMin`, `Tarjan.lower`, `Tarjan.scFor`, `Tarjan.popTo`, `Tarjan.finish`, `Tarjan.enter`, `Tarjan.strongConnect` |
| graph.py | 787 | `Graph.label_strong_component` | `Tarjan.labelStrongComponent` |
| graph.py | 803 | `Graph.dfs` | `Dfs.dfsFor`, `Dfs.enter`, `Dfs.leave`, `Dfs.touchPred`, `Dfs.dfs`, `Dfs.byFinish`, `Dfs.dfsForT`, `Dfs.dfsT`, `DfsPic.dfsForP`, `DfsPic.enterP`, `DfsPic.leaveP`, `DfsPic.dfsP`, `Misc.withSet` |
| graph.py | 876 | `Graph.hamiltonian` | `Misc.hamLoop`, `Misc.hamDone`, `Misc.hamiltonian`, `Misc.withSet` |
| graph.py | 931 | `Graph.bfs` | `Components.bfs` |
| graph.py | 946 | `Graph.acyclic_shortest_path` | `Dfs.better`, `Dfs.acFor`, `Dfs.acLoop`, `Dfs.acyclicShortestPath` |
| graph.py | 974 | `Graph.search` | `Misc.withSet`, `Search.nbrs`, `Search.touch`, `Search.touchAll`, `Search.resetEdges`, `Search.forNbrs`, `Search.enter`, `Search.visit`, `Search.loop`, `Search.reconstruct`, `Search.start`, `Search.search`, `SearchPic.ekey`, `SearchPic.touchAllP`, `SearchPic.resetP`, `SearchPic.forNbrsP`, `SearchPic.enterP`, `SearchPic.visitP`, `SearchPic.loopP`, `SearchPic.searchP` |
| graph.py | 1095 | `Graph.process_node_search` | `Search.enter` |
| graph.py | 1111 | `Graph.process_edge_dijkstra` | `Search.processEdgePQ`, `Search.processSource`, `SearchPic.processEdgePQP`, `SearchPic.sourceLabel` |
| graph.py | 1144 | `Graph.process_edge_prim` | `Search.processEdgePQ`, `Search.processSource`, `SearchPic.processEdgePQP`, `SearchPic.sourceLabel` |
| graph.py | 1176 | `Graph.process_edge_search` | `Search.finishEdge`, `Search.processEdge`, `Search.processSource`, `SearchPic.finishLabel`, `SearchPic.processEdgeP`, `SearchPic.sourceLabel` |
| graph.py | 1243 | `Graph.minimum_spanning_tree_prim` | `Misc.withSet`, `MstPic.edgeP`, `MstPic.forNP`, `MstPic.treeEdgeP`, `MstPic.bodyP`, `MstPic.loopP`, `MstPic.mstPrimP`, `Prim.improves`, `Prim.relax`, `Prim.edge`, `Prim.forN`, `Prim.treeEdge`, `Prim.body`, `Prim.loop`, `Prim.mstPrim` |
| graph.py | 1297 | `Graph.minimum_spanning_tree_kruskal` | `DisjointSet.addAll`, `DisjointSet.costs`, `DisjointSet.sorted`, `DisjointSet.loop`, `DisjointSet.kruskal`, `DisjointSet.loopD`, `DisjointSet.kruskalWith`, `Misc.withSet`, `MstPic.loopP`, `MstPic.kruskalP` |
| graph.py | 1339 | `Graph.max_flow_preflowpush` | `Misc.withSet`, `Preflow.enq`, `Preflow.enqHead`, `Preflow.forNbrs`, `Preflow.settle`, `Preflow.finish`, `Preflow.step`, `Preflow.loop`, `Preflow.saturate`, `Preflow.firstLabels`, `Preflow.preflowPush`, `PreflowPic.forNbrsP`, `PreflowPic.relabelP`, `PreflowPic.settleP`, `PreflowPic.stepP`, `PreflowPic.loopP`, `PreflowPic.mainP`, `PreflowPic.preflowPushP` |
| graph.py | 1447 | `Graph.process_edge_flow` | `Preflow.pushOn`, `Preflow.processEdge` |
| graph.py | 1486 | `Graph.relabel` | `Preflow.minOut`, `Preflow.minIn`, `Preflow.relabel` |
| graph.py | 1508 | `Graph.show_flow` | `Display.showArcs`, `Display.showNodes`, `Display.showFlow`, `PreflowPic.showP` |
| graph.py | 1537 | `Graph.create_residual_graph` | `MinCost.addBack`, `MinCost.addForth`, `MinCost.residualLoop`, `MinCost.residual` |
| graph.py | 1564 | `Graph.cycle_canceling` | `MinCost.cycleCanceling` |
| graph.py | 1606 | `Graph.find_feasible_flow` | `MinCost.addDemand`, `MinCost.addDemands`, `MinCost.saturated`, `MinCost.feasibleFlow` |
| graph.py | 1654 | `Graph.get_layout` | `Display.getLayout` |
| graph.py | 1665 | `Graph.set_layout` | `Display.texStyle`, `Display.setLayout` |
| graph.py | 1678 | `Graph.write` | `Display.write` |
| graph.py | 1700 | `Graph.create` | `Display.create` |
| graph.py | 1735 | `Graph.display` | `Display.colour`, `Display.texTry`, `Display.convert`, `Display.fileTex`, `Display.fileMode`, `Display.picture`, `Display.pilMode`, `Display.mplMode`, `Display.xdotMode`, `Display.window`, `Display.forceFile`, `Display.display` |
| graph.py | 1867 | `Graph.set_display_mode` | `Misc.withSet` (the display column) |
| graph.py | 1880 | `Graph.max_flow` | `MaxFlow.capOf`, `MaxFlow.avail`, `MaxFlow.scan`, `MaxFlow.find`, `MaxFlow.potential`, `MaxFlow.lowest`, `MaxFlow.bottleneck`, `MaxFlow.pushArc`, `MaxFlow.augment`, `MaxFlow.loop`, `MaxFlow.maxFlow`, `MaxFlowPic.firstLabel`, `MaxFlowPic.atCap`, `MaxFlowPic.reset`, `MaxFlowPic.arcKey`, `MaxFlowPic.fullColor`, `MaxFlowPic.scanP`, `MaxFlowPic.findP`, `MaxFlowPic.flowLabel`, `MaxFlowPic.pushArcP`, `MaxFlowPic.augmentP`, `MaxFlowPic.loopP`, `MaxFlowPic.maxFlowP`, `Misc.withRestore` |
| graph.py | 2045 | `Graph.get_negative_cycle` | `FloydWarshall.getNegativeCycle` |
| graph.py | 2068 | `Graph.floyd_warshall` | `FloydWarshall.arcs`, `FloydWarshall.dist0`, `FloydWarshall.next0`, `FloydWarshall.relax`, `FloydWarshall.row`, `FloydWarshall.phase`, `FloydWarshall.check`, `FloydWarshall.floydWarshall` |
| graph.py | 2133 | `Graph.floyd_warshall_get_path` | `FloydWarshall.join`, `FloydWarshall.getPath` |
| graph.py | 2156 | `Graph.floyd_warshall_get_cycle` | `FloydWarshall.firstNeg`, `FloydWarshall.back`, `FloydWarshall.cycleFrom`, `FloydWarshall.getCycle` |
| graph.py | 2192 | `Graph.find_cycle_capacity` | `MinCost.capLoop`, `MinCost.cycleCapacity` |
| graph.py | 2217 | `Graph.fifo_label_correcting` | `LabelCorrecting.enqueue`, `LabelCorrecting.longer`, `LabelCorrecting.update`, `LabelCorrecting.relax`, `LabelCorrecting.scan`, `LabelCorrecting.loop`, `LabelCorrecting.start`, `LabelCorrecting.fifo` |
| graph.py | 2265 | `Graph.label_correcting_check_cycle` | `LabelCorrecting.meets`, `LabelCorrecting.checkCycle` |
| graph.py | 2293 | `Graph.label_correcting_get_cycle` | `LabelCorrecting.getCycle`, `LabelCorrecting.cycleOf` |
| graph.py | 2321 | `Graph.augment_cycle` | `MinCost.augLoop`, `MinCost.augmentCycle` |
| graph.py | 2356 | `Graph.network_simplex` | `Simplex.refresh`, `Simplex.pivotStep`, `Simplex.mainLoop`, `Simplex.setup`, `Simplex.networkSimplex`, `Simplex.networkSimplexPi`, `SimplexNames.refreshC`, `SimplexNames.pivotStepC`, `SimplexNames.mainLoopC`, `SimplexNames.setupC`, `SimplexNames.networkSimplexC`, `SimplexPic.pivotStepP`, `SimplexPic.mainLoopP`, `SimplexPic.setupP`, `SimplexPic.networkSimplexP` |
| graph.py | 2422 | `Graph.simplex_mark_leaving_arc` | `Display.markLeaving`, `SimplexPic.paintArc` |
| graph.py | 2436 | `Graph.simplex_determine_leaving_arc` | `Simplex.leaveStep`, `Simplex.leaveLoop`, `Simplex.leaving`, `Simplex.pivotOn`, `SimplexNames.pivotOnC`, `SimplexPic.pivotOnP` |
| graph.py | 2492 | `Graph.simplex_mark_entering_arc` | `Display.markEntering`, `SimplexPic.paintArc` |
| graph.py | 2506 | `Graph.simplex_mark_st_arcs` | `Display.markTree`, `Simplex.markArcs`, `SimplexPic.paintTree` |
| graph.py | 2542 | `Graph.print_flow` | `Display.printFlow` |
| graph.py | 2556 | `Graph.simplex_redraw` | `Simplex.copyIdx`, `Simplex.drawNode`, `Simplex.drawArc`, `Simplex.drawFor`, `Simplex.outIn`, `Simplex.drawLoop`, `Simplex.drawAttrs`, `Simplex.redraw` |
| graph.py | 2607 | `Graph.simplex_remove_arc` | `Simplex.pushStep`, `Simplex.pushLoop`, `Simplex.pushCycle`, `Simplex.pivotOn`, `Simplex.stamps`, `SimplexNames.pivotOnC`, `SimplexPic.arcLabel`, `SimplexPic.labelPivot`, `SimplexPic.pivotOnP` |
| graph.py | 2665 | `Graph.simplex_select_entering_arc` | `Simplex.reduced`, `Simplex.violation`, `Simplex.greatest`, `Simplex.entering` |
| graph.py | 2727 | `Graph.simplex_optimal` | `Simplex.reduced`, `Simplex.violation`, `Simplex.optimal` |
| graph.py | 2759 | `Graph.simplex_find_tree` | `Simplex.breakCycles`, `Simplex.connectLoop`, `Simplex.findTree`, `Simplex.stamps`, `SimplexNames.breakCyclesC`, `SimplexNames.connectLoopC`, `SimplexNames.findTreeC`, `SimplexPic.arcLabel`, `SimplexPic.labelAll` |
| graph.py | 2801 | `Graph.simplex_connect` | `Simplex.arcTo`, `Simplex.arcOut`, `Simplex.connectLoop`, `SimplexNames.connectLoopC` |
| graph.py | 2837 | `Graph.simplex_search` | `Simplex.visit`, `Simplex.around`, `Simplex.searchLoop`, `Simplex.threads`, `Simplex.search`, `SimplexNames.threadsC`, `SimplexNames.searchC`, `SimplexNames.reachTag` |
| graph.py | 2884 | `Graph.simplex_augment_cycle` | `Simplex.resid`, `Simplex.amountLoop`, `Simplex.amount` |
| graph.py | 2921 | `Graph.simplex_find_cycle` | `Simplex.around`, `Simplex.ancestors`, `Simplex.closedWalk`, `Simplex.cycleFor`, `Simplex.cycleLoop`, `Simplex.freshC`, `Simplex.cycleOuter`, `Simplex.findCycle`, `SimplexNames.cycleOuterC`, `SimplexNames.findCycleC` |
| graph.py | 2990 | `Graph.get_simplex_solution_graph` | `Simplex.solutionArcs`, `Simplex.solutionNodes`, `Simplex.solutionGraph` |
| graph.py | 3015 | `Graph.simplex_compute_potentials` | `Simplex.potAt`, `Simplex.potLoop`, `Simplex.potentials`, `Simplex.identify`, `SimplexNames.identifyC` |
| graph.py | 3046 | `Graph.simplex_identify_cycle` | `Simplex.meet`, `SimplexNames.meetC` |
| graph.py | 3088 | `Graph.min_cost_flow` | `Simplex.minCostFlow` |
| graph.py | 3165 | `Graph.random` | `Euclid.byLength`, `Euclid.closeLabel`, `Euclid.closeOne`, `Euclid.closeLoop`, `Euclid.closeAll`, `Euclid.pickAll`, `Euclid.euclid`, `Misc.addNodes`, `Misc.addLabel`, `Misc.addRandom`, `Misc.tryPair`, `Misc.pairs`, `Misc.degLabel`, `Misc.degAdd`, `Misc.degRound`, `Misc.rounds` |
| graph.py | 3318 | `Graph.page_rank` | `Misc.prNode`, `Misc.prSweep`, `Misc.prLoop`, `Misc.pageRank` |
| graph.py | 3362 | `Graph.get_degrees` | `Misc.bothNbrs`, `Misc.getDegrees` |
| graph.py | 3382 | `Graph.get_in_degrees` | `Misc.getInOutDegrees` |
| graph.py | 3400 | `Graph.get_out_degrees` | `Misc.getInOutDegrees` |
| graph.py | 3418 | `Graph.get_diameter` | `Misc.diamInner`, `Misc.diamUpd`, `Misc.diamOuter`, `Misc.getDiameter` |
| graph.py | 3451 | `Graph.create_cluster` | `Clusters.RCluster`, `Clusters.createRef`, `Misc.createCluster` |
| graph.py | 3486 | `DisjointSet.__init__` | `DisjointSet.DSet`, `DisjointSet.init` |
| graph.py | 3503 | `DisjointSet.add` | `DisjointSet.addEdges`, `DisjointSet.add` |
| graph.py | 3519 | `DisjointSet.union` | `DisjointSet.link`, `DisjointSet.union` |
| graph.py | 3543 | `DisjointSet.find` | `DisjointSet.climb`, `DisjointSet.redirect`, `DisjointSet.compress`, `DisjointSet.find` |
| tree.py | 22 | `Tree.__init__` | `Tree`, `Tree.init` |
| tree.py | 36 | `Tree.get_children` | `Tree.getChildren` |
| tree.py | 50 | `Tree.get_parent` | `Tree.getParent` |
| tree.py | 67 | `Tree.add_root` | `Tree.addRoot` |
| tree.py | 85 | `Tree.add_child` | `Tree.addChild` |
| tree.py | 107 | `Tree.dfs` | `Tree.traverse` |
| tree.py | 126 | `Tree.bfs` | `Tree.traverse`, `TreeMore.traverseQ` |
| tree.py | 145 | `Tree.traverse` | `Tree.travLoop`, `TreeMore.travQ` |
| tree.py | 186 | `BinaryTree.__init__` | `Tree.init` |
| tree.py | 197 | `BinaryTree.add_root` | `Tree.addRoot` |
| tree.py | 210 | `BinaryTree.add_right_child` | `Tree.side`, `Tree.addChildLR` |
| tree.py | 229 | `BinaryTree.add_left_child` | `Tree.addChildLR` |
| tree.py | 248 | `BinaryTree.get_right_child` | `Tree.getChild` |
| tree.py | 265 | `BinaryTree.get_left_child` | `Tree.getChild` |
| tree.py | 282 | `BinaryTree.del_node` | `Tree.delNode` |
| tree.py | 299 | `BinaryTree.print_nodes` | `Misc.withRestoreTruthy`, `Tree.printNodes` |
| tree.py | 348 | `BinaryTree.dfs` | `Tree.btraverse` |
| tree.py | 365 | `BinaryTree.bfs` | `Tree.btraverse` with a queue |
| tree.py | 382 | `BinaryTree.traverse` | `Misc.withRestoreTruthy`, `Tree.kids`, `Tree.btravLoop`, `Tree.btraverse`, `TreeMore.btravQ`, `TreeMore.btraverseQ` |
| tree.py | 434 | `BinaryTree.printexp` | `Tree.labelOf`, `Tree.expOpt`, `Tree.printexp` |
| tree.py | 465 | `BinaryTree.postordereval` | `Tree.BinOp`, `Tree.BinOp.run`, `Tree.labelOf`, `Tree.evalOpt`, `Tree.combine`, `Tree.eval`, `TreeMore.outOpt`, `TreeMore.outEnd`, `TreeMore.evalOut` |
| global_constants.py | 130 | `quote_if_necessary` | `Dot.esc`, `Dot.quote` |
| global_constants.py | 149 | `needs_quotes` | `Dot.base`, `Dot.needsQuotes` |

Not modelled: `handle_close` (the handler of a window), the directory `examples` except `BB.py`, `forestry.py` and `simplex_test.py`, floating point,
`copy.deepcopy`, threads, the outside programs (Graphviz, dot2tex, LaTeX, Pillow, matplotlib, xdot: any behaviour, as a
parameter).

## Trusted base

* Lean's kernel.
* The axioms below; no other axiom occurs, there is no `sorry`, no `native_decide` and no `bv_decide`. `decide +kernel`
  is used for concrete witnesses; it is checked by the kernel.
* The reading of the Python code into `Verif/Model`, function by function as cited.
* The laws of the `blimpy` queues named above.
* The numeric idealisation.

Axioms of each theorem named in MANIFEST.json (`#print axioms`):

* []: `C83_mark_arc`
* [propext, Classical.choice, Quot.sound]: `BB.C100_depth_first`, `BB.C101_bounds`, `BB.C101_least_bound_partial`, `BB.C101_not_best`, `BB.C102_printed_partial`, `BB.C102_sentinel`, `BB.C123_branching`, `BB.C97_generated`, `BB.C97_optimal`, `BB.C98_search_tree`, `BB.C99_not_green`, `BB.C99_stays_yellow_partial`, `C01_digraph_views`, `C02_undirected_views`, `C03_counts`, `C03_refines_simple_graph`, `C04_raising_call_changes_nothing`, `C05_lists_after_failure_partial`, `C06_del_node_exact`, `C07_get_node`, `C07_reads_return_last_write`, `C08_search_tree`, `C09_search_path`, `C104_integer_names_partial`, `C104_no_numeral`, `C104_numeral`, `C104_other_names`, `C104_some_without_number`, `C105_false`, `C105_free_arcs_partial`, `C107_max_flow_lp`, `C107_min_cost_flow_lp`, `C108_infeasible_certificate`, `C109_not_connected`, `C10_bfs_shortest`, `C110_generate`, `C110_in_scope_partial`, `C110_not_balanced`, `C110_sum`, `C111_cycle_apart`, `C111_no_root`, `C111_same`, `C112_message_false`, `C112_program`, `C112_script_partial`, `C113_any_network`, `C113_default_root`, `C113_joined`, `C114_bfs_maximum`, `C114_bfs_passes`, `C115_label_correcting_turns`, `C116_preflow_iterations`, `C117_constants_partial`, `C118_clusters_read_back_partial`, `C118_false`, `C119_given_components_partial`, `C11_dijkstra`, `C120_dfs_any_state_partial`, `C120_false`, `C120_false_acyclic`, `C121_dfs_depth_partial`, `C121_false`, `C121_strong_depth_partial`, `C122_postordereval`, `C122_print_nodes`, `C122_printexp`, `C124_search_picture`, `C125_bfs_labels_partial`, `C125_dijkstra_labels_partial`, `C125_search_labels_partial`, `C126_max_flow_picture`, `C127_dfs_picture`, `C128_kruskal_picture`, `C129_prim_picture`, `C12_prim_search`, `C130_preflow_picture`, `C131_preflow_distances_show_cut`, `C132_simplex_picture`, `C133_page_rank_solution`, `C134_dangling_loses`, `C134_ranks_add_up_partial`, `C135_cancel_ends_partial`, `C136_components`, `C136_diameter`, `C136_distances`, `C137_kruskal`, `C137_prim`, `C138_missing_sink_unnoticed`, `C138_missing_source_partial`, `C139_most_paths`, `C139_preflow_paths`, `C13_bfs_marks_reachable_partial`, `C140_disjoint_paths`, `C140_preflow_disjoint`, `C142_potentials_solve_dual`, `C143_defaults_converge`, `C143_page_rank_iterations`, `C145_delete_all_partial`, `C145_live_loop`, `C146_clear_edges`, `C146_clear_nodes`, `C147_del_edge_undoes`, `C147_del_node_undoes`, `C148_bfs_tree`, `C148_search_tree`, `C14_label_components`, `C15_strong_components`, `C16_false_concrete`, `C16_relabel_unchanged_partial`, `C17_dfs_times`, `C18_topological_order`, `C19_acyclic_shortest_path`, `C19_predecessors`, `C20_mst_prim`, `C21_false_second_call_empty`, `C22_kruskal`, `C23_find_same`, `C24_union_sizes`, `C25_log_depth`, `C26_max_flow_feasible`, `C27_max_flow_maximum`, `C28_antiparallel_diverges`, `C28_preflow_max`, `C29_max_flow_agree`, `C30_residual_graph`, `C31_augment_cycle`, `C32_floyd_warshall_exact`, `C33_floyd_warshall_valid`, `C34_get_path_partial`, `C35_negative_cycle_partial`, `C36_cycle_canceling`, `C37_find_feasible_flow`, `C38_network_simplex`, `C38_optimality_test`, `C39_false`, `C39_fifo_partial`, `C39_python3_partial`, `C40_rooted_tree`, `C41_traverse_partial`, `C42_print_nodes`, `C43_raise_unchanged_partial`, `C44_false`, `C44_value_partial`, `C45_false`, `C45_needs_quotes`, `C45_quote_exact`, `C45_quote_partial`, `C45_unquoted`, `C46_to_string_partial`, `C47_degrees_partial`, `C47_false`, `C48_diameter`, `C49_page_rank`, `C50_create_cluster_partial`, `C51_random`, `C52_false`, `C52_hamiltonian_partial`, `C52_missing_source`, `C54_printexp`, `C55_refines_binary_tree`, `C56_traverse`, `C57_page_rank_converges`, `C58_false`, `C58_random_degree_partial`, `C59_read_back`, `C60_find_tree`, `C61_pivot`, `C62_may_not_terminate`, `C62_terminates_partial`, `C63_min_cost_flow`, `C64_preflow_terminates`, `C65_dantzig`, `C66_first_eligible_partial`, `C67_false_default`, `C67_false_no_times`, `C67_transpose_partial`, `C68_two_passes`, `C69_find_flattens`, `C70_bfs_pq`, `C71_dfs_pq_partial`, `C71_dfs_pq_raises`, `C72_reverse_raises`, `C73_redraw`, `C74_display_frame`, `C74_text_settings`, `C75_C79_witness`, `C75_highlight_lost`, `C75_highlight_partial`, `C76_click_leak`, `C76_create_leak`, `C76_create_partial`, `C76_display_leak`, `C76_display_partial`, `C77_dot2tex_partial`, `C77_dot2tex_raises`, `C78_file`, `C78_file_fails`, `C79_mode_partial`, `C80_repr`, `C82_show_flow`, `C83_between_bounds`, `C83_mark_partial`, `C84_mst_methods_agree`, `C85_shortest_path_methods_agree`, `C86_max_flow_min_cut`, `C87_min_cost_methods_agree`, `C88_no_cross_edges`, `C88_search_dfs_tree`, `C89_components_reverse_topological`, `C90_dfs_tree`, `C91_dfs_finds_cycles`, `C92_closest`, `C92_too_many`, `C93_false`, `C93_random_selection_partial`, `C94_binary_calls_independent_partial`, `C94_tree_calls_independent`, `C95_eval_output`, `C96_del_node_partial`, `C96_false`, `Forestry.C106_bound_needed`, `Forestry.C106_forestry`, `Forestry.C141_forestry_network`, `LP.exists_exactSolver`, `Misc.C144_clusters_keep_partial`
* [propext, Quot.sound]: `C05_false_always_raises`, `C05_false_corrupts`, `C07_capacity`, `C07_flow`, `C103_highest_partial`, `C103_not_highest`, `C104_identity`, `C112_message`, `C117_false_add_edge`, `C119_false`, `C11_self_loop`, `C124_self_loop`, `C125_false`, `C12_self_loop`, `C138_source_is_sink`, `C13_false`, `C21_false_concrete`, `C27_antiparallel_arcs_matter`, `C30_antiparallel_raises`, `C36_may_not_terminate`, `C41_root_omitted_raises`, `C63_scaled_raises`, `C66_false`, `C67_visit_order`, `C72_reverse_partial`, `C81_positive`, `C81_print_flow_partial`, `C94_given_stack`, `Misc.C144_dict_reused`, `Misc.C144_list_shared`
* [propext]: `C07_cost`, `C07_demand`, `C07_number`, `C09_self_loop_diverges`, `C109_both_occur`, `C113_first_node`, `C145_false`, `C14_digraph_raises`, `C16_false_relabel_does_nothing`, `C21_mst_prim_history_partial`, `C30_undirected_raises`, `C34_false`, `C35_false_cost`, `C35_false_exception`, `C35_false_self_loop`, `C37_supply_needed`, `C43_false`, `C46_cluster_attributes`, `C46_false`, `C48_not_undirected`, `C50_false`, `C53_display_restored_partial`, `C53_false`, `C54_unbalanced`, `C60_no_nodes`, `C73_redraw_no_attrs`, `C81_negative`, `C83_same_colour`, `C94_false`, `Misc.C144_false_dict`, `Misc.C144_false_list`

## Tests of the theorems

`seeded/LOG.jsonl` has one line for each wrong program tried: the definition edited, the edit, the claim that becomes
false, the theorems that no longer check, and the theorems tightened because a wrong program passed. When a lemma under a
property theorem fails, the property theorem cannot be checked; the line lists both. Some lines give a `refutation`: a
concrete input on which the statement of the property theorem was evaluated and found false for the wrong program.
