{"id": "C01", "title": "Digraph views stay consistent over every edit history", "statement": "Starting from an empty directed Graph, after any sequence of add_node, add_edge, del_edge, del_node, set_node_attr and set_edge_attr calls (including calls that raise), the public views agree: v is in get_neighbors(u) iff check_edge(u,v) iff u is in get_in_neighbors(v); every endpoint of an edge is in get_node_list; no list contains duplicates.", "quantifier": "all node-name types, all finite operation sequences, including failing operations", "why_tests_cant": "histories are unbounded; a stale adjacency entry may only appear after one particular add/delete interleaving", "anchors": ["src/gimpy/graph.py:Graph.add_node", "src/gimpy/graph.py:Graph.add_edge", "src/gimpy/graph.py:Graph.del_edge", "src/gimpy/graph.py:Graph.del_node"]}
{"id": "C02", "title": "Undirected views stay consistent and symmetric over every edit history without del_node", "statement": "Starting from an empty undirected Graph, after any sequence of add_node, add_edge, del_edge and attribute writes (including calls that raise), v is in get_neighbors(u) iff check_edge(u,v) iff check_edge(v,u) iff u is in get_neighbors(v); an edge is never stored in both orientations.", "quantifier": "all node-name types, all finite operation sequences", "why_tests_cant": "histories are unbounded", "anchors": ["src/gimpy/graph.py:Graph.add_edge", "src/gimpy/graph.py:Graph.del_edge", "src/gimpy/graph.py:Graph.check_edge"]}
{"id": "C03", "title": "The edit API behaves like a plain set of nodes and edges", "statement": "Every edit call succeeds or raises exactly as the abstract simple-graph operation on (node set, edge set) does (add_node raises iff the node exists, add_edge raises iff the edge exists, del_edge raises iff it does not, del_node on a digraph raises iff the node does not), and its effect on get_node_list/get_edge_list is the abstract effect.", "quantifier": "all histories of edit operations on digraphs, and on undirected graphs without del_node", "why_tests_cant": "needs the refinement for every reachable state", "anchors": ["src/gimpy/graph.py:Graph.add_node", "src/gimpy/graph.py:Graph.add_edge", "src/gimpy/graph.py:Graph.del_edge", "src/gimpy/graph.py:Graph.del_node", "src/gimpy/graph.py:Graph.__contains__"]}
{"id": "C04", "title": "A raising edit call leaves the graph unchanged", "statement": "If add_node, add_edge, del_edge or (on a digraph) del_node raises, every observable of the graph is exactly what it was before the call.", "quantifier": "all reachable graphs and all arguments", "why_tests_cant": "partial mutation before an exception shows only in some states", "anchors": ["src/gimpy/graph.py:Graph.add_node", "src/gimpy/graph.py:Graph.add_edge", "src/gimpy/graph.py:Graph.del_edge", "src/gimpy/graph.py:Graph.del_node"]}
{"id": "C05", "title": "del_node works on undirected graphs", "statement": "On an undirected graph del_node(n) of an existing node removes the node and its incident edges and leaves a consistent graph.", "quantifier": "all undirected graphs and nodes", "why_tests_cant": "the code may fail for every input, which a sample cannot establish", "anchors": ["src/gimpy/graph.py:Graph.del_node"]}
{"id": "C06", "title": "del_node on a digraph removes exactly the node and its incident edges", "statement": "After del_node(n) on a digraph the nodes are the old ones minus n, the edges are the old ones not touching n, and every attribute of every remaining node and edge is unchanged.", "quantifier": "all reachable digraphs, all nodes including ones with self loops", "why_tests_cant": "all graphs", "anchors": ["src/gimpy/graph.py:Graph.del_node"]}
{"id": "C07", "title": "Attribute reads return the last write and nothing else moves", "statement": "get_edge_attr/get_node_attr return the value most recently set by set_edge_attr/set_node_attr or by the add call's keyword, in either orientation of an undirected edge; writing one attribute of one item changes no other item or attribute.", "quantifier": "all reachable graphs, items, attribute names and values", "why_tests_cant": "aliasing between items shows only in particular histories", "anchors": ["src/gimpy/graph.py:Graph.set_edge_attr", "src/gimpy/graph.py:Graph.get_edge_attr", "src/gimpy/graph.py:Graph.set_node_attr", "src/gimpy/graph.py:Graph.get_node_attr"]}
{"id": "C08", "title": "search without destination returns a search tree of exactly the reachable nodes", "statement": "search(source, algo='DFS'/'BFS'/'UnweightedSPT') with no destination terminates without raising and returns a predecessor dictionary whose keys together with source are exactly the nodes reachable from source; each pred link is an edge of the graph; on graphs without self loops following links always leads back to source.", "quantifier": "all consistent graphs, all sources, all queue implementations that behave as bags", "why_tests_cant": "all graphs and all queue orders", "anchors": ["src/gimpy/graph.py:Graph.search", "src/gimpy/graph.py:Graph.process_edge_search"]}
{"id": "C09", "title": "search with destination returns a path iff one exists", "statement": "search(source, destination) returns a list that starts at source, ends at destination and follows edges iff destination is reachable from source, and returns None otherwise.", "quantifier": "all consistent graphs without self loops, all source/destination pairs, all bag-like queues", "why_tests_cant": "all graphs and queue orders; non-termination is not testable", "anchors": ["src/gimpy/graph.py:Graph.search"]}
{"id": "C10", "title": "BFS search finds shortest unweighted paths", "statement": "search(algo='BFS' or 'UnweightedSPT') sets each reachable node's 'distance' to the least number of edges on any walk from source and the path it returns to a destination has that length.", "quantifier": "all consistent graphs, sources, destinations", "why_tests_cant": "minimality ranges over all walks", "anchors": ["src/gimpy/graph.py:Graph.search", "src/gimpy/graph.py:Graph.process_edge_search"]}
{"id": "C11", "title": "Dijkstra search finds cheapest paths", "statement": "With non-negative integer 'cost' on every edge and no self loops, search(algo='Dijkstra') terminates, the path it returns is a minimum-cost path, and each reached node's 'priority' equals the least cost of any walk from source.", "quantifier": "all consistent graphs, all non-negative costs, every correct priority queue (any tie-breaking)", "why_tests_cant": "minimality ranges over all walks and tie-breaks", "anchors": ["src/gimpy/graph.py:Graph.search", "src/gimpy/graph.py:Graph.process_edge_dijkstra"]}
{"id": "C12", "title": "Prim search returns a minimum spanning tree", "statement": "On an undirected graph without self loops with integer costs, search(algo='Prim') returns a predecessor dictionary whose links form a spanning tree of source's connected component with total cost no larger than that of any other spanning tree.", "quantifier": "all undirected graphs, costs and tie-breaks", "why_tests_cant": "minimality over all spanning trees", "anchors": ["src/gimpy/graph.py:Graph.search", "src/gimpy/graph.py:Graph.process_edge_prim"]}
{"id": "C13", "title": "bfs() labels nodes with breadth-first distances", "statement": "After bfs(root), the 'distance' attribute of every reachable node is the least number of edges from root.", "quantifier": "all graphs and roots", "why_tests_cant": "all graphs", "anchors": ["src/gimpy/graph.py:Graph.bfs"]}
{"id": "C14", "title": "label_components labels exactly the connected components", "statement": "After label_components() on an undirected graph two nodes have equal 'component' iff they are connected, labels are 0..num_components-1 each used, and the call never raises; on a digraph it raises and changes nothing.", "quantifier": "all undirected graphs", "why_tests_cant": "all graphs and node orders", "anchors": ["src/gimpy/graph.py:Graph.label_components"]}
{"id": "C15", "title": "label_strong_component labels exactly the strongly connected components of a fresh graph", "statement": "On a digraph whose nodes carry no 'index' attribute, after tarjan()/label_strong_component() two nodes have equal 'component' iff each is reachable from the other, and num_components is the number of distinct labels.", "quantifier": "all digraphs", "why_tests_cant": "all graphs and edge orders", "anchors": ["src/gimpy/graph.py:Graph.tarjan", "src/gimpy/graph.py:Graph.strong_connect", "src/gimpy/graph.py:Graph.label_strong_component"]}
{"id": "C16", "title": "label_strong_component can be called again after edits", "statement": "Calling label_strong_component() after further edits relabels the nodes so that labels again agree exactly on strongly connected components.", "quantifier": "all histories of edits and earlier labelings", "why_tests_cant": "depends on history", "anchors": ["src/gimpy/graph.py:Graph.tarjan"]}
{"id": "C17", "title": "dfs visits exactly the reachable nodes with unique times", "statement": "On a graph whose nodes have no 'disc_time', dfs(root) gives a disc_time and finish_time to exactly the nodes reachable from root; disc times are 1..k and finish times are 1..k without repetition, it returns (k, k+1), and exactly these nodes get the component number passed.", "quantifier": "all consistent graphs and roots", "why_tests_cant": "all graphs", "anchors": ["src/gimpy/graph.py:Graph.dfs"]}
{"id": "C18", "title": "dfs produces a topological order on acyclic graphs", "statement": "If no cycle is reachable from root, the topological_order list filled by dfs contains each reachable node exactly once and u comes before v for every edge (u,v) between them.", "quantifier": "all consistent graphs and roots with no reachable cycle", "why_tests_cant": "all graphs", "anchors": ["src/gimpy/graph.py:Graph.dfs"]}
{"id": "C19", "title": "acyclic_shortest_path returns cheapest paths on DAGs", "statement": "On an acyclic digraph in which every node is reachable from source and every edge has a cost, acyclic_shortest_path(source, destination) returns a minimum-cost path from source to destination, for any sign of costs.", "quantifier": "all such DAGs and costs", "why_tests_cant": "minimality over all paths", "anchors": ["src/gimpy/graph.py:Graph.acyclic_shortest_path"]}
{"id": "C20", "title": "minimum_spanning_tree_prim returns a minimum spanning tree on fresh graphs", "statement": "On an undirected graph without self loops whose nodes carry no 'color', minimum_spanning_tree_prim(source) returns predecessor links forming a minimum-cost spanning tree of source's component.", "quantifier": "all undirected graphs, costs, tie-breaks", "why_tests_cant": "minimality over all spanning trees", "anchors": ["src/gimpy/graph.py:Graph.minimum_spanning_tree_prim"]}
{"id": "C21", "title": "minimum_spanning_tree_prim does not depend on earlier calls", "statement": "The result of minimum_spanning_tree_prim(source) depends only on the graph and costs, not on algorithms run before on the same object.", "quantifier": "all histories", "why_tests_cant": "depends on history", "anchors": ["src/gimpy/graph.py:Graph.minimum_spanning_tree_prim", "src/gimpy/graph.py:Graph.search"]}
{"id": "C22", "title": "Kruskal returns a minimum spanning tree", "statement": "On a connected undirected graph with integer costs minimum_spanning_tree_kruskal() returns edges forming a spanning tree whose total cost is no larger than that of any other spanning tree; on a disconnected graph it returns a minimum spanning forest.", "quantifier": "all undirected graphs and costs", "why_tests_cant": "minimality over all spanning trees", "anchors": ["src/gimpy/graph.py:Graph.minimum_spanning_tree_kruskal"]}
{"id": "C23", "title": "DisjointSet.find agrees exactly with the unions made so far", "statement": "After any history of add (of new items), union and find calls, find(i)==find(j) iff i and j were placed in the same add or are linked by a chain of unions, with and without path compression.", "quantifier": "all histories, both optimize settings", "why_tests_cant": "histories are unbounded", "anchors": ["src/gimpy/graph.py:DisjointSet.add", "src/gimpy/graph.py:DisjointSet.union", "src/gimpy/graph.py:DisjointSet.find"]}
{"id": "C24", "title": "DisjointSet.union returns True iff it merged, and sizes are exact", "statement": "union(i,j) returns True iff find(i)!=find(j) before the call; sizes[root] is the number of items of the set of root for every root.", "quantifier": "all histories", "why_tests_cant": "histories are unbounded", "anchors": ["src/gimpy/graph.py:DisjointSet.union"]}
{"id": "C25", "title": "DisjointSet trees are logarithmically shallow with optimize", "statement": "With optimize=True every find walks at most log2(number of items in the set) links.", "quantifier": "all histories of add of singletons, union, find", "why_tests_cant": "worst-case over histories", "anchors": ["src/gimpy/graph.py:DisjointSet.union", "src/gimpy/graph.py:DisjointSet.find"]}
{"id": "C26", "title": "max_flow returns a feasible flow", "statement": "After max_flow(source, sink) on a digraph with non-negative integer capacities and no antiparallel arcs, 0 <= flow <= capacity on each arc and flow is conserved at each node except source and sink.", "quantifier": "all such networks, both algo choices", "why_tests_cant": "all networks", "anchors": ["src/gimpy/graph.py:Graph.max_flow"]}
{"id": "C27", "title": "max_flow terminates with a maximum flow", "statement": "Under the same conditions max_flow terminates and no feasible flow has a larger net value into sink.", "quantifier": "all such networks, all feasible flows, both algo choices", "why_tests_cant": "maximality over all flows; termination", "anchors": ["src/gimpy/graph.py:Graph.max_flow"]}
{"id": "C28", "title": "max_flow_preflowpush returns a maximum flow", "statement": "On a digraph with non-negative integer capacities, no antiparallel arcs and no self loops, when max_flow_preflowpush returns the arcs carry a feasible flow of maximum value, for each of 'FIFO', 'SAP' and 'HighestLabel'.", "quantifier": "all such networks and queue orders", "why_tests_cant": "maximality over all flows", "anchors": ["src/gimpy/graph.py:Graph.max_flow_preflowpush", "src/gimpy/graph.py:Graph.process_edge_flow", "src/gimpy/graph.py:Graph.relabel"]}
{"id": "C29", "title": "The two max flow methods agree", "statement": "max_flow and max_flow_preflowpush leave flows of equal value.", "quantifier": "all such networks", "why_tests_cant": "all networks", "anchors": ["src/gimpy/graph.py:Graph.max_flow", "src/gimpy/graph.py:Graph.max_flow_preflowpush"]}
{"id": "C30", "title": "create_residual_graph is the exact residual network", "statement": "The returned graph has arc (u,v) with capacity r and cost c exactly when (u,v) is an arc with r=capacity-flow>0 and that cost, or (v,u) is an arc with r=flow>0 and the negated cost.", "quantifier": "all digraphs without antiparallel arcs or self loops, all flows", "why_tests_cant": "all networks", "anchors": ["src/gimpy/graph.py:Graph.create_residual_graph"]}
{"id": "C31", "title": "augment_cycle by at most the cycle capacity keeps a flow feasible and changes cost by amount times cycle cost", "statement": "Augmenting a simple residual cycle by 0<=amount<=find_cycle_capacity keeps 0<=flow<=capacity and every node balance, and changes total cost by amount times the cycle's residual cost.", "quantifier": "all networks without antiparallel arcs or self loops, flows, residual cycles, amounts", "why_tests_cant": "all cycles", "anchors": ["src/gimpy/graph.py:Graph.augment_cycle", "src/gimpy/graph.py:Graph.find_cycle_capacity"]}
{"id": "C32", "title": "floyd_warshall distances are exact when it reports validity", "statement": "If floyd_warshall returns valid, distance[(i,j)] for i != j is the least cost of any walk from i to j, or 'infinity' when there is none.", "quantifier": "all digraphs and integer costs of any sign", "why_tests_cant": "minimality over all walks", "anchors": ["src/gimpy/graph.py:Graph.floyd_warshall"]}
{"id": "C33", "title": "floyd_warshall validity flag detects negative cycles exactly", "statement": "floyd_warshall returns invalid iff the graph has a closed walk of negative total cost.", "quantifier": "all digraphs and costs", "why_tests_cant": "all cycles", "anchors": ["src/gimpy/graph.py:Graph.floyd_warshall"]}
{"id": "C34", "title": "floyd_warshall_get_path returns a shortest path", "statement": "When floyd_warshall is valid and j is reachable from i != j, floyd_warshall_get_path returns [i,...,j] following edges, with cost distance[(i,j)].", "quantifier": "all digraphs and costs without negative cycles (or zero cycles), all pairs", "why_tests_cant": "all graphs", "anchors": ["src/gimpy/graph.py:Graph.floyd_warshall_get_path"]}
{"id": "C35", "title": "get_negative_cycle returns a genuine negative cycle", "statement": "get_negative_cycle returns None iff there is no negative cycle, and otherwise a list of nodes that is a cycle of negative total cost.", "quantifier": "all digraphs and costs", "why_tests_cant": "all graphs", "anchors": ["src/gimpy/graph.py:Graph.get_negative_cycle", "src/gimpy/graph.py:Graph.floyd_warshall_get_cycle"]}
{"id": "C36", "title": "cycle_canceling ends only in a minimum cost flow", "statement": "When cycle_canceling returns True the flow is feasible for the demands and no feasible flow is cheaper.", "quantifier": "all networks without antiparallel arcs or self loops, with balanced demands and a supply node", "why_tests_cant": "minimality over all flows", "anchors": ["src/gimpy/graph.py:Graph.cycle_canceling"]}
{"id": "C37", "title": "find_feasible_flow decides feasibility and restores the graph", "statement": "With balanced demands and at least one supply node, find_feasible_flow returns True iff a feasible flow exists, in which case the flows meet every demand; nodes and edges are the same after the call as before.", "quantifier": "all networks without antiparallel arcs", "why_tests_cant": "all networks", "anchors": ["src/gimpy/graph.py:Graph.find_feasible_flow"]}
{"id": "C38", "title": "Network simplex stops only at a minimum cost flow", "statement": "If the simplex optimality test accepts a feasible tree solution whose potentials give zero reduced cost on tree arcs and whose non-tree arcs are at a bound, no feasible flow is cheaper.", "quantifier": "all networks, trees, potentials", "why_tests_cant": "minimality over all flows", "anchors": ["src/gimpy/graph.py:Graph.simplex_optimal", "src/gimpy/graph.py:Graph.network_simplex", "src/gimpy/graph.py:Graph.simplex_compute_potentials"]}
{"id": "C39", "title": "fifo_label_correcting computes shortest paths", "statement": "fifo_label_correcting(source) returns (True, pred) with shortest path labels or (False, cycle) with a negative cycle.", "quantifier": "all digraphs and costs", "why_tests_cant": "all graphs", "anchors": ["src/gimpy/graph.py:Graph.fifo_label_correcting"]}
{"id": "C40", "title": "Tree building keeps a rooted tree", "statement": "After add_root and any sequence of add_child calls (including raising ones), every node other than the root has exactly one parent, get_parent/get_children agree, 'level' is the distance from the root, and there is no cycle.", "quantifier": "all histories", "why_tests_cant": "histories are unbounded", "anchors": ["src/gimpy/tree.py:Tree.add_root", "src/gimpy/tree.py:Tree.add_child", "src/gimpy/tree.py:Tree.get_parent", "src/gimpy/tree.py:Tree.get_children"]}
{"id": "C41", "title": "Tree.traverse visits every descendant exactly once", "statement": "Tree.traverse(root) visits each node of the subtree exactly once, each after its parent; with a Queue in non-decreasing level order, with a Stack in depth-first order; also when root is omitted.", "quantifier": "all trees", "why_tests_cant": "all trees", "anchors": ["src/gimpy/tree.py:Tree.traverse", "src/gimpy/tree.py:Tree.dfs", "src/gimpy/tree.py:Tree.bfs"]}
{"id": "C42", "title": "print_nodes prints pre-, in- and post-order", "statement": "BinaryTree.print_nodes(order, priority) prints each node of the tree exactly once, in the pre-, in- or post-order sequence of the abstract binary tree (mirrored for priority 'R').", "quantifier": "all binary trees", "why_tests_cant": "all trees", "anchors": ["src/gimpy/tree.py:BinaryTree.print_nodes"]}
{"id": "C43", "title": "A raising child insertion leaves the binary tree unchanged", "statement": "If add_left_child/add_right_child raises, the tree is as before.", "quantifier": "all binary trees and arguments", "why_tests_cant": "partial mutation shows only in some states", "anchors": ["src/gimpy/tree.py:BinaryTree.add_right_child", "src/gimpy/tree.py:BinaryTree.add_left_child"]}
{"id": "C44", "title": "postordereval computes the value of the expression", "statement": "postordereval() returns the arithmetic value of the expression tree.", "quantifier": "all expression trees without division by zero", "why_tests_cant": "all expressions", "anchors": ["src/gimpy/tree.py:BinaryTree.postordereval"]}
{"id": "C45", "title": "DOT identifiers are quoted so that the output reads back as the same string", "statement": "quote_if_necessary(s) is a single DOT identifier token denoting s.", "quantifier": "all strings", "why_tests_cant": "all strings", "anchors": ["src/gimpy/global_constants.py:quote_if_necessary", "src/gimpy/global_constants.py:needs_quotes"]}
{"id": "C46", "title": "to_string mentions every node and edge exactly once", "statement": "to_string() emits one statement for every node and one for every edge, also with clusters, and does not raise.", "quantifier": "all graphs and clusterings", "why_tests_cant": "all graphs", "anchors": ["src/gimpy/graph.py:Graph.to_string"]}
{"id": "C47", "title": "Degree reports are correct", "statement": "get_degrees/get_in_degrees/get_out_degrees return for each node the number of incident/incoming/outgoing edge ends.", "quantifier": "all graphs", "why_tests_cant": "all graphs", "anchors": ["src/gimpy/graph.py:Graph.get_degrees", "src/gimpy/graph.py:Graph.get_in_degrees", "src/gimpy/graph.py:Graph.get_out_degrees"]}
{"id": "C48", "title": "get_diameter is the largest distance", "statement": "On a connected undirected graph get_diameter returns the largest shortest-path length over all pairs, and 'infinity' iff it is disconnected.", "quantifier": "all undirected graphs", "why_tests_cant": "all pairs and graphs", "anchors": ["src/gimpy/graph.py:Graph.get_diameter"]}
{"id": "C49", "title": "page_rank is total, covers the nodes and is bounded below", "statement": "page_rank never divides by zero, returns one value for each node, and every value is at least (1-d)/N for 0<=d<=1.", "quantifier": "all digraphs, damping factors, iteration counts", "why_tests_cant": "all graphs", "anchors": ["src/gimpy/graph.py:Graph.page_rank"]}
{"id": "C50", "title": "create_cluster adds a new cluster every time", "statement": "Each create_cluster call without a name adds a new cluster and leaves earlier clusters unchanged.", "quantifier": "all histories", "why_tests_cant": "depends on history of calls in the whole process", "anchors": ["src/gimpy/graph.py:Graph.create_cluster"]}
{"id": "C51", "title": "random builds a simple graph within the requested bounds", "statement": "random() with density adds nodes 0..n-1 and only edges between distinct nodes, no antiparallel pair unless parallel_allowed, costs within length_range, whatever the random number generator returns.", "quantifier": "all parameters and all random sequences", "why_tests_cant": "all random outcomes", "anchors": ["src/gimpy/graph.py:Graph.random"]}
{"id": "C52", "title": "hamiltonian decides whether a Hamiltonian path exists", "statement": "hamiltonian(source) returns True iff there is a Hamiltonian path from source.", "quantifier": "all graphs", "why_tests_cant": "all graphs", "anchors": ["src/gimpy/graph.py:Graph.hamiltonian"]}
{"id": "C53", "title": "The display argument does not change the graph's display mode", "statement": "Passing display=... to an algorithm method does not change the object's display setting after the call.", "quantifier": "all algorithm methods with a display argument", "why_tests_cant": "all methods and modes", "anchors": ["src/gimpy/graph.py:Graph.search", "src/gimpy/graph.py:Graph.max_flow", "src/gimpy/graph.py:Graph.set_display_mode"]}
{"id": "C54", "title": "printexp prints the infix form", "statement": "For an expression tree in which every inner node has two children and no node has a falsy name, printexp() prints the fully parenthesised infix form of the expression.", "quantifier": "all such binary trees built by add_root/add_left_child/add_right_child/del_node", "why_tests_cant": "all expressions", "anchors": ["src/gimpy/tree.py:BinaryTree.printexp"]}
{"id": "C55", "title": "The binary tree calls refine an abstract binary tree", "statement": "Every call of add_left_child, add_right_child and del_node (of a leaf) raises exactly when the call is impossible on the abstract binary tree, and otherwise changes the object as the abstract tree changes: same nodes, child slots and edges.", "quantifier": "all histories in which an insertion into a free slot uses a new name and only leaves are deleted; raising calls included", "why_tests_cant": "histories are unbounded", "anchors": ["src/gimpy/tree.py:BinaryTree.add_right_child", "src/gimpy/tree.py:BinaryTree.add_left_child", "src/gimpy/tree.py:BinaryTree.del_node", "src/gimpy/tree.py:BinaryTree.get_right_child", "src/gimpy/tree.py:BinaryTree.get_left_child"]}
{"id": "C56", "title": "BinaryTree.traverse visits every descendant exactly once", "statement": "BinaryTree.traverse(root) visits each node of the subtree exactly once, each after its parent, with a Queue in non-decreasing level order and with a Stack in depth-first order, also when root is omitted; with a Stack the order is the preorder of the tree for priority 'R' and of its mirror image for priority 'L'.", "quantifier": "all binary trees", "why_tests_cant": "all trees", "anchors": ["src/gimpy/tree.py:BinaryTree.traverse", "src/gimpy/tree.py:BinaryTree.dfs", "src/gimpy/tree.py:BinaryTree.bfs"]}
{"id": "C57", "title": "page_rank converges to the solution of the PageRank equations", "statement": "For a damping factor 0<=d<1 and a positive min_delta, page_rank ends by its convergence test if enough iterations are allowed, and whenever it ends so the errors of the returned ranks against any solution of the PageRank equations add up to at most d/(1-d)*min_delta (over exact arithmetic).", "quantifier": "all digraphs, damping factors, tolerances", "why_tests_cant": "all graphs; a bound relative to the exact solution", "anchors": ["src/gimpy/graph.py:Graph.page_rank"]}
{"id": "C58", "title": "random with degree_range picks the requested edges", "statement": "random() with degree_range adds nodes 0..n-1 and, for every node and every picked neighbour different from it, the edge (or, without parallel_allowed, the opposite one), with the cost drawn for it, and never raises.", "quantifier": "all arguments and all random sequences", "why_tests_cant": "all random outcomes", "anchors": ["src/gimpy/graph.py:Graph.random"]}
{"id": "C59", "title": "The text of to_string reads back as the graph", "statement": "If node names and attribute values contain no quotes, backslashes, line ends, commas, colons or '<' and are neither empty nor keywords, and attribute names are plain words, then a DOT reader reads the text of to_string() of a graph without clusters as a graph with the same kind, name, graph attributes, nodes, edges and node and edge attributes.", "quantifier": "all graphs and such names", "why_tests_cant": "all names and graphs", "anchors": ["src/gimpy/graph.py:Graph.to_string", "src/gimpy/graph.py:Graph.edge_to_string", "src/gimpy/graph.py:Node.to_string", "src/gimpy/global_constants.py:quote_if_necessary"]}
{"id": "C60", "title": "simplex_find_tree returns a spanning tree solution", "statement": "On a connected digraph without antiparallel arcs or self loops and for any flow within the bounds, simplex_find_tree ends without an exception with a spanning tree and a flow within the bounds with the same net flow at every node that is empty or full on every arc outside the tree.", "quantifier": "all such networks and flows", "why_tests_cant": "all networks; termination of the removal of cycles", "anchors": ["src/gimpy/graph.py:Graph.simplex_find_tree", "src/gimpy/graph.py:Graph.simplex_find_cycle", "src/gimpy/graph.py:Graph.simplex_connect", "src/gimpy/graph.py:Graph.simplex_augment_cycle", "src/gimpy/graph.py:Graph.get_simplex_solution_graph"]}
{"id": "C61", "title": "A pivot keeps the spanning tree solution and never raises the cost", "statement": "From any spanning tree solution that simplex_optimal rejects, one round of the main loop of network_simplex raises nothing, exchanges one arc of the tree, keeps the flow within the bounds, the net flows and the bounds outside the tree, and makes the flow cheaper or leaves it as it is.", "quantifier": "all networks, spanning trees and flows, both pivot rules", "why_tests_cant": "all trees and flows", "anchors": ["src/gimpy/graph.py:Graph.simplex_select_entering_arc", "src/gimpy/graph.py:Graph.simplex_determine_leaving_arc", "src/gimpy/graph.py:Graph.simplex_remove_arc", "src/gimpy/graph.py:Graph.simplex_identify_cycle", "src/gimpy/graph.py:Graph.simplex_search", "src/gimpy/graph.py:Graph.simplex_compute_potentials"]}
{"id": "C62", "title": "Network simplex terminates", "statement": "network_simplex returns on every connected network in the scope of min_cost_flow.", "quantifier": "all such networks", "why_tests_cant": "non-termination cannot be observed", "anchors": ["src/gimpy/graph.py:Graph.network_simplex"]}
{"id": "C63", "title": "min_cost_flow solves the minimum cost flow problem", "statement": "Whatever the algorithm, when min_cost_flow returns after solving, the flow is a feasible flow of least cost or 'problem is infeasible' was printed and there is no feasible flow; only an unknown algorithm makes it return without solving; network simplex (the default, with either pivot rule) raises nothing.", "quantifier": "all connected networks in scope, roots, pivot rules, algorithms", "why_tests_cant": "minimality over all flows", "anchors": ["src/gimpy/graph.py:Graph.min_cost_flow", "src/gimpy/graph.py:Graph.network_simplex"]}
{"id": "C64", "title": "max_flow_preflowpush terminates", "statement": "On a digraph with non-negative integer capacities and neither antiparallel arcs nor self loops, in which every node joined to the source by an arc of positive capacity can reach the sink, the main loop of max_flow_preflowpush ends after a number of iterations bounded by a polynomial in the number of nodes and the sum of the capacities.", "quantifier": "all such networks, the three algorithms, all queue orders", "why_tests_cant": "termination for every network and every queue order", "anchors": ["src/gimpy/graph.py:Graph.max_flow_preflowpush", "src/gimpy/graph.py:Graph.relabel"]}
{"id": "C65", "title": "The Dantzig rule takes an arc of greatest violation", "statement": "simplex_select_entering_arc(t, 'dantzig') returns the first arc, in the order of get_edge_list, of greatest absolute reduced cost among the arcs outside the tree that violate the optimality condition (negative reduced cost at flow 0, positive at capacity); it raises UnboundLocalError exactly when there is none, which is exactly when simplex_optimal returns True.", "quantifier": "all networks, trees, flows and potentials", "why_tests_cant": "all networks, flows and potentials", "anchors": ["src/gimpy/graph.py:Graph.simplex_select_entering_arc", "src/gimpy/graph.py:Graph.simplex_optimal"]}
{"id": "C66", "title": "first_eligible takes the first eligible arc", "statement": "simplex_select_entering_arc(t, 'first_eligible') returns the first arc, in the order of get_edge_list, that violates the optimality condition.", "quantifier": "all networks, trees, flows and potentials", "why_tests_cant": "all networks, flows and potentials", "anchors": ["src/gimpy/graph.py:Graph.simplex_select_entering_arc"]}
{"id": "C67", "title": "dfs with transpose labels the nodes that reach the root", "statement": "dfs(root, transpose=True) on a digraph sets 'component' on exactly the nodes that reach root through nodes without a component, numbers them 1..n in discovery and in finishing, touches no other node, and tries neighbours in the order of descending earlier finish time.", "quantifier": "all digraphs, roots and attribute states", "why_tests_cant": "all graphs and all earlier labels", "anchors": ["src/gimpy/graph.py:Graph.dfs"]}
{"id": "C68", "title": "Two passes of dfs label the strongly connected components", "statement": "Calling dfs on every undiscovered node in turn and then dfs(transpose=True) with a new component number on every unlabelled node by descending finish time gives two nodes the same component exactly when each reaches the other.", "quantifier": "all digraphs", "why_tests_cant": "all graphs", "anchors": ["src/gimpy/graph.py:Graph.dfs"]}
{"id": "C69", "title": "find flattens the path it climbs", "statement": "After find(i) of an optimised DisjointSet every node on the path from i to its root points straight at the root, all other nodes keep their parent and the sizes are as before; without optimisation find changes nothing.", "quantifier": "all sequences of add and union calls, all items", "why_tests_cant": "all operation sequences", "anchors": ["src/gimpy/graph.py:DisjointSet.find"]}
{"id": "C70", "title": "BFS over a PriorityQueue gives shortest paths by edges", "statement": "search(algo='BFS', q=PriorityQueue()) stops without error, the predecessor dictionary has exactly the nodes reachable from the source other than it, and following the links back from any of them gives a path with the least number of edges.", "quantifier": "all graphs built by the public operations, all sources, both directions, every lawful priority queue", "why_tests_cant": "all graphs and queue states", "anchors": ["src/gimpy/graph.py:Graph.search", "src/gimpy/graph.py:Graph.process_edge_search"]}
{"id": "C71", "title": "DFS over a PriorityQueue traverses the reachable nodes", "statement": "search(algo='DFS', q=PriorityQueue()) stops without error and the predecessor dictionary has exactly the nodes reachable from the source other than it.", "quantifier": "all graphs, all sources", "why_tests_cant": "all graphs and queue states", "anchors": ["src/gimpy/graph.py:Graph.search", "src/gimpy/graph.py:Graph.process_edge_search"]}
{"id": "C72", "title": "Weighted search in the reverse direction", "statement": "search(algo='Dijkstra' or 'Prim', reverse=True) runs without error on every graph whose edges all have a cost.", "quantifier": "all graphs with costs, all sources", "why_tests_cant": "all graphs", "anchors": ["src/gimpy/graph.py:Graph.search", "src/gimpy/graph.py:Graph.process_edge_dijkstra", "src/gimpy/graph.py:Graph.process_edge_prim"]}
{"id": "C73", "title": "simplex_redraw copies the tree of the root", "statement": "simplex_redraw(display, root) stops on every digraph and returns a graph with exactly the nodes connected with the root, all arcs, the same pred, depth and thread of each node and the same flow, capacity and cost of each arc; if some arc is not connected with the root it raises KeyError.", "quantifier": "all digraphs built by the public operations, all attributes, all roots", "why_tests_cant": "the traversal keeps no set of visited nodes, only the nodes of the copy; termination and completeness on every shape need an invariant", "anchors": ["src/gimpy/graph.py:Graph.simplex_redraw"]}
{"id": "C74", "title": "display changes only what it shows", "statement": "Whatever the mode, layout, installed programs and outcome, display() leaves nodes, adjacency, edges, edge attributes and all node attributes except the color of highlighted nodes unchanged, changes no graph attribute except display, layout and d2tgraphstyle, and no file except basename.format, basename.tex and basename.dot.", "quantifier": "all graphs, graph attributes, environments (answers of Graphviz, dot2tex, LaTeX, Pillow, matplotlib, xdot), arguments; also when an exception is raised", "why_tests_cant": "tests run with the programs that happen to be installed and with few modes", "anchors": ["src/gimpy/graph.py:Graph.display", "src/gimpy/graph.py:Graph.write", "src/gimpy/graph.py:Graph.create", "src/gimpy/graph.py:Graph.set_layout"]}
{"id": "C75", "title": "display restores the colour of highlighted nodes", "statement": "After display(highlight) the highlighted nodes have the colour they had before the call.", "quantifier": "all graphs, lists of nodes, modes, layouts, environments", "why_tests_cant": "a test with black nodes passes; the colour is set to a constant and not restored, and in mode 'file' not at all", "anchors": ["src/gimpy/graph.py:Graph.display"]}
{"id": "C76", "title": "create and display leave no temporary files", "statement": "create() and display() remove every temporary file they make.", "quantifier": "all graphs, modes, layouts, environments", "why_tests_cant": "the leak occurs only if Graphviz is missing or fails, or the window is closed by a click", "anchors": ["src/gimpy/graph.py:Graph.create", "src/gimpy/graph.py:Graph.display"]}
{"id": "C77", "title": "Layout dot2tex writes a TeX file and returns", "statement": "With layout 'dot2tex' display() writes basename.tex and returns, whether or not dot2tex is installed.", "quantifier": "all graphs, modes other than 'off', environments", "why_tests_cant": "needs runs without dot2tex; the missing assignment is seen only then", "anchors": ["src/gimpy/graph.py:Graph.display"]}
{"id": "C78", "title": "Mode file writes the picture", "statement": "In mode 'file' with a layout of Graphviz display() writes to basename.format what Graphviz makes of the DOT text of the graph with the highlighted nodes red (the text itself if the format is 'dot').", "quantifier": "all graphs, names, formats, layouts, answers of Graphviz; a failing Graphviz raises CalledProcessError and leaves an empty file", "why_tests_cant": "tests look at the existence of the file", "anchors": ["src/gimpy/graph.py:Graph.display", "src/gimpy/graph.py:Graph.write", "src/gimpy/graph.py:Graph.to_string"]}
{"id": "C79", "title": "display keeps mode and layout", "statement": "display() does not change the display mode and the layout of the graph.", "quantifier": "all graphs, modes, layouts, environments", "why_tests_cant": "the mode is changed only if a library is missing or the layout is dot2tex", "anchors": ["src/gimpy/graph.py:Graph.display", "src/gimpy/graph.py:Graph.set_layout", "src/gimpy/graph.py:Graph.set_display_mode"]}
{"id": "C80", "title": "repr shows every node with its neighbours", "statement": "repr(g) raises nothing and has one line for each node in the order of insertion: the name, ' -> ', and the list of neighbours, with no newline at the end.", "quantifier": "all graphs built by the public operations, all names", "why_tests_cant": "only a general argument excludes a node without an entry in neighbors", "anchors": ["src/gimpy/graph.py:Graph.__repr__"]}
{"id": "C81", "title": "print_flow prints the arcs with positive flow", "statement": "print_flow prints exactly the arcs with positive flow, in the order of insertion, with flow and capacity.", "quantifier": "all graphs whose arcs have flow and capacity", "why_tests_cant": "tests use non-negative flows, for which it holds", "anchors": ["src/gimpy/graph.py:Graph.print_flow"]}
{"id": "C82", "title": "show_flow labels nodes and arcs", "statement": "show_flow labels every node with excess/distance and every arc with capacity/flow (INF for the capacity 10000), colours an arc red if it is saturated, green if it has positive flow and black otherwise, and changes nothing else.", "quantifier": "all digraphs built by the public operations with integer excess, distance, capacity and flow", "why_tests_cant": "a picture is not compared by tests", "anchors": ["src/gimpy/graph.py:Graph.show_flow"]}
{"id": "C83", "title": "simplex_mark_st_arcs uses five colours", "statement": "simplex_mark_st_arcs colours arcs blue (tree, lower bound), red (tree, upper bound), green (between the bounds), brown (non-tree, lower bound), violet (non-tree, upper bound) and raises if a non-tree arc is between its bounds.", "quantifier": "all digraphs, trees, flows", "why_tests_cant": "a picture is not compared by tests", "anchors": ["src/gimpy/graph.py:Graph.simplex_mark_st_arcs", "src/gimpy/graph.py:Graph.simplex_mark_entering_arc", "src/gimpy/graph.py:Graph.simplex_mark_leaving_arc"]}
{"id": "C84", "title": "the spanning tree methods agree", "statement": "On a connected undirected graph with integer costs and no self loops, search(algo='Prim'), minimum_spanning_tree_prim and minimum_spanning_tree_kruskal find trees of the same total cost, from any source and over any priority queue.", "quantifier": "all connected graphs, sources, priority queues and tie-breaking rules", "why_tests_cant": "three methods compared on every graph", "anchors": ["src/gimpy/graph.py:Graph.search", "src/gimpy/graph.py:Graph.minimum_spanning_tree_prim", "src/gimpy/graph.py:Graph.minimum_spanning_tree_kruskal"]}
{"id": "C85", "title": "the shortest path methods agree", "statement": "On a digraph with non-negative integer costs and no self loops, search(algo='Dijkstra'), floyd_warshall and fifo_label_correcting (with the ordering of Python 2) find the same distances, and on acyclic digraphs with everything reachable acyclic_shortest_path finds paths of these costs.", "quantifier": "all such digraphs, sources, priority queues", "why_tests_cant": "four methods compared on every graph", "anchors": ["src/gimpy/graph.py:Graph.search", "src/gimpy/graph.py:Graph.floyd_warshall", "src/gimpy/graph.py:Graph.fifo_label_correcting", "src/gimpy/graph.py:Graph.acyclic_shortest_path"]}
{"id": "C86", "title": "maximum flow equals minimum cut", "statement": "On a digraph without antiparallel arcs and self loops and with non-negative integer capacities, the value of the flow found by max_flow, and by every run of max_flow_preflowpush that returns, is the capacity of a minimum cut.", "quantifier": "all such networks, sources, sinks, queue orders", "why_tests_cant": "minimum over all cuts of every network", "anchors": ["src/gimpy/graph.py:Graph.max_flow", "src/gimpy/graph.py:Graph.max_flow_preflowpush"]}
{"id": "C87", "title": "the minimum cost flow methods agree", "statement": "Two runs of min_cost_flow on one connected network that return, with any algorithm, root, pivot rule and queue, either both say that the problem is infeasible or find flows of the same total cost.", "quantifier": "all connected networks with non-negative integer capacities and no antiparallel arcs, integer costs, balanced demands", "why_tests_cant": "all pairs of methods on every network", "anchors": ["src/gimpy/graph.py:Graph.min_cost_flow", "src/gimpy/graph.py:Graph.network_simplex", "src/gimpy/graph.py:Graph.cycle_canceling"]}
{"id": "C88", "title": "search over a stack is depth first", "statement": "On a graph without self loops, search with the default algo and the default stack returns a depth-first tree of the reachable nodes: there is an order of the nodes starting at the source in which ancestors come first, the descendants of a node follow it without interruption, and every edge to a later node leads to a descendant. distance is the depth in the tree. On an undirected graph every edge joins an ancestor and a descendant.", "quantifier": "all graphs without self loops, sources, directions and stacks", "why_tests_cant": "structure of the tree against all edges of every graph", "anchors": ["src/gimpy/graph.py:Graph.search", "src/gimpy/graph.py:Graph.process_edge_search"]}
{"id": "C89", "title": "strong components are numbered in reverse topological order", "statement": "After label_strong_component on a graph without index attributes, a path from u to v means that the component of v is smaller than that of u, or equal if v also reaches u.", "quantifier": "all graphs, pairs of nodes", "why_tests_cant": "all paths of every graph", "anchors": ["src/gimpy/graph.py:Graph.label_strong_component", "src/gimpy/graph.py:Graph.tarjan", "src/gimpy/graph.py:Graph.strong_connect"]}
{"id": "C90", "title": "dfs builds a depth-first tree with nested times", "statement": "After dfs(root) on a graph without discovery times, pred is a depth-first tree of the reachable nodes whose preorder is the order of disc_time; u is an ancestor of v iff disc_time of u is not later and finish_time of u is not earlier; an edge leads to a descendant or to a node discovered before.", "quantifier": "all graphs, roots, components", "why_tests_cant": "all pairs of nodes of every graph", "anchors": ["src/gimpy/graph.py:Graph.dfs"]}
{"id": "C91", "title": "dfs finds the cycles", "statement": "After dfs(root) on a graph without discovery times, a cycle is reachable from root iff some edge leads from a reachable node to a node that is not finished earlier.", "quantifier": "all graphs, roots", "why_tests_cant": "all cycles of every graph", "anchors": ["src/gimpy/graph.py:Graph.dfs"]}
{"id": "C92", "title": "Euclidean random graphs join every node with its nearest ones", "statement": "random(numnodes, Euclidean=True, degree_range=...) with node_selection='closest' on a new graph, edge_format without 'cost': if every degree drawn is less than numnodes the call returns, the nodes are 0..n-1, and every node is joined with the nodes other than itself among the degree+1 first ones by rounded distance and number, and with no other by an edge added for it; no node left out is nearer than one joined; the cost is the rounded distance. In a digraph the number of outgoing arcs is degree, or degree+1 if the node is not among its own degree+1 first ones. If some degree drawn is numnodes or more the call raises IndexError.", "quantifier": "all numbers of nodes, points, degrees, attributes", "why_tests_cant": "all positions and degrees drawn, including ties", "anchors": ["src/gimpy/graph.py:Graph.random"]}
{"id": "C93", "title": "Euclidean random graphs with node_selection='random' have edges", "statement": "random(numnodes, Euclidean=True, degree_range=..., node_selection='random') on a new graph returns a graph in which every node has been given as many edges as its degree drawn.", "quantifier": "all numbers of nodes, points, degrees", "why_tests_cant": "the failure for all inputs with a positive degree cannot be sampled", "anchors": ["src/gimpy/graph.py:Graph.random"]}
{"id": "C94", "title": "traverse calls without q do not influence each other", "statement": "Tree.traverse and BinaryTree.traverse have a default stack that is made once and shared by all calls on all trees. Consecutive calls without q, on any trees and from any roots, each return or raise what the call does on a new stack, as long as every call ends.", "quantifier": "all sequences of calls, trees reachable by the API, roots", "why_tests_cant": "the leak needs an earlier call that raised", "anchors": ["src/gimpy/tree.py:Tree.traverse", "src/gimpy/tree.py:BinaryTree.traverse", "src/gimpy/tree.py:BinaryTree.add_right_child", "src/gimpy/tree.py:BinaryTree.del_node"]}
{"id": "C95", "title": "postordereval prints the evaluation", "statement": "On an arithmetic expression tree whose proper subexpressions are not 0, with truthy names and operator labels that are not numerals, postordereval prints for every operation the left operand, the operator, the right operand and the value, twice; the labels come in the order of printexp.", "quantifier": "all binary trees built by the API, all labels", "why_tests_cant": "all expression trees", "anchors": ["src/gimpy/tree.py:BinaryTree.postordereval", "src/gimpy/tree.py:BinaryTree.printexp"]}
{"id": "C96", "title": "del_node of an inner node of a binary tree leaves a tree", "statement": "After BinaryTree.del_node(n) of a node other than the root the remaining nodes form a rooted tree.", "quantifier": "all binary trees built by the API, all nodes other than the root", "why_tests_cant": "the failure is shown for every inner node", "anchors": ["src/gimpy/tree.py:BinaryTree.del_node"]}
{"id": "C97", "title": "branch and bound finds an optimal solution", "statement": "examples/BB.py stops after at most 2^(n+1)-1 linear programs without an exception. If the 0-1 program has a solution with objective above -9999 then opt is an optimal solution and LB its value; otherwise LB is -9999 and opt is 0.", "quantifier": "all instances, strategies, exact solvers and lawful priority queues", "why_tests_cant": "all instances and all sequences of answers of the solver", "anchors": ["src/gimpy/examples/BB.py"]}
{"id": "C98", "title": "the search tree is a certificate", "statement": "At the end of examples/BB.py the nodes of the tree are the root 0 and as many as node_count, iter_count and lp_count say; the attributes of a node give the variables fixed on the way to it; every node is infeasible, holds a best solution below it, is pruned by the bound, or has exactly two children in which a fractional variable is fixed to 0 and to 1; the edges are the pairs of parent and child.", "quantifier": "all instances, strategies, exact solvers and lawful priority queues", "why_tests_cant": "all instances, the whole tree", "anchors": ["src/gimpy/examples/BB.py"]}
{"id": "C99", "title": "a node that has been branched is green", "statement": "In examples/BB.py a node is made green after its children have been put into the queue.", "quantifier": "all instances, strategies, exact solvers and lawful priority queues", "why_tests_cant": "the failure is shown for every instance", "anchors": ["src/gimpy/examples/BB.py"]}
{"id": "C100", "title": "DEPTH_FIRST takes a deepest node", "statement": "With DEPTH_FIRST the node taken from the queue of examples/BB.py is one of greatest level.", "quantifier": "all instances, strategies, exact solvers and lawful priority queues, all states of the loop", "why_tests_cant": "all states of the loop", "anchors": ["src/gimpy/examples/BB.py"]}
{"id": "C101", "title": "BEST_FIRST takes a node with the best bound", "statement": "With BEST_FIRST the node taken from the queue of examples/BB.py is one whose parent has the greatest bound.", "quantifier": "all instances, strategies, exact solvers and lawful priority queues, all states of the loop", "why_tests_cant": "the failure is shown for every state", "anchors": ["src/gimpy/examples/BB.py"]}
{"id": "C102", "title": "what branch and bound prints is a solution", "statement": "The values that examples/BB.py prints as optimal solution satisfy the constraints, and the value printed is the one of the objective.", "quantifier": "all instances, strategies, exact solvers and lawful priority queues", "why_tests_cant": "the failure needs an instance without solutions above -9999", "anchors": ["src/gimpy/examples/BB.py"]}
{"id": "C103", "title": "HighestLabel takes a node of greatest distance", "statement": "In max_flow_preflowpush with algo='HighestLabel' every turn of the main loop takes a node whose distance is greatest among the nodes in the queue.", "quantifier": "all graphs, lawful priority queues and turns of the loop", "why_tests_cant": "all states of the loop and all ways to break ties", "anchors": ["src/gimpy/graph.py:1387-1445"]}
{"id": "C104", "title": "network_simplex works for names of any kind", "statement": "For every feasible connected network flow problem network_simplex returns True with a flow, whatever the names of the nodes are (strings, numerals, large integers), as the other methods do.", "quantifier": "all networks, all names, all assignments of objects to equal names", "why_tests_cant": "all networks and all ways in which the interpreter shares or does not share equal objects", "anchors": ["src/gimpy/graph.py:2877-2878", "src/gimpy/graph.py:2942", "src/gimpy/graph.py:2982", "src/gimpy/graph.py:3036-3080"]}
{"id": "C105", "title": "arcs without capacity are unbounded", "statement": "In max_flow and max_flow_preflowpush an arc without the attribute 'capacity' has no bound: the flow found has the greatest value among the flows that respect the given capacities only.", "quantifier": "all digraphs without antiparallel arcs and self loops, all choices of arcs without capacity", "why_tests_cant": "a maximum over all flows of all networks", "anchors": ["src/gimpy/graph.py:1902-1909", "src/gimpy/graph.py:1366-1445"]}
{"id": "C106", "title": "the forestry example finds a best harvest plan", "statement": "forestry.py builds its network without an exception, and the flow on the arcs from the production of a forest in a year to the total production of that year is a harvest plan with the greatest total: at no time more is cut in a forest than has become ripe, in no year more than the demand.", "quantifier": "all numbers of years and forests, all non-negative demands with a sum of at most 10000, all non-negative harvests, all bags as queues", "why_tests_cant": "a maximum over all plans for all data; the script runs one random instance", "anchors": ["src/gimpy/examples/forestry.py:24-51"]}
{"id": "C107", "title": "the flows solve the linear programs", "statement": "A flow that min_cost_flow stores is an optimal solution of the linear program of minimum cost flow, that is no flow with fractional values costs less; when it reports infeasibility the linear program has no solution. The flow of max_flow has the greatest value among fractional flows.", "quantifier": "all connected problems in the scope of min_cost_flow, all algorithms, roots, pivot rules and queues, all flows with values in any ordered field; all networks in the scope of max_flow", "why_tests_cant": "the linear program has infinitely many solutions", "anchors": ["src/gimpy/graph.py:Graph.min_cost_flow", "src/gimpy/graph.py:Graph.max_flow", "src/gimpy/examples/simplex_test.py:110-139"]}
{"id": "C108", "title": "an infeasible problem has an overloaded set of nodes", "statement": "find_feasible_flow returns False exactly when there is a set of nodes whose supplies exceed the capacity of the arcs that leave it, and exactly when there is no fractional flow that meets the demands.", "quantifier": "all digraphs without antiparallel arcs with non-negative capacities and balanced demands, all bags as queues, all ordered fields", "why_tests_cant": "a statement about all subsets of the nodes and all flows of all networks", "anchors": ["src/gimpy/graph.py:Graph.find_feasible_flow"]}
{"id": "C109", "title": "network simplex fails on networks that are not connected", "statement": "On a feasible minimum cost flow problem with an arc that is not connected to the root, network_simplex never returns: it raises KeyError (in simplex_redraw, for an arc of the first forest out of reach of the root) or TypeError (for an arc outside the forest at a node whose potential was never set). So precondition (3) of min_cost_flow, that the graph be connected, is needed whenever each part has an arc.", "quantifier": "all feasible problems in the scope of min_cost_flow otherwise, all roots, both pivot rules, all lawful queues", "why_tests_cant": "The failure depends on which arcs the first feasible flow uses; a test sees one network and one exception.", "anchors": ["src/gimpy/graph.py:Graph.network_simplex", "src/gimpy/graph.py:Graph.simplex_redraw", "src/gimpy/graph.py:Graph.simplex_connect", "src/gimpy/graph.py:Graph.simplex_optimal", "src/gimpy/graph.py:Graph.min_cost_flow"]}
{"id": "C110", "title": "generate_graph makes minimum cost flow problems", "statement": "In simplex_test.py, generate_graph(seed) returns, unless one of the loops that draw nodes goes on for ever, a digraph without self loops, antiparallel arcs or isolated nodes, with capacities and costs in the configured ranges; demand_nodes demand and supply_nodes supply nodes, disjoint, with equal totals; and the attribute demand is minus the demand, the supply, or 0. The sum of the attribute is the supply minus the demand of the chosen nodes that exist, so the problem is balanced, as network simplex requires, whenever all the chosen nodes are in the graph.", "quantifier": "all random number generators whose randint(a, b) stays in the range, all seeds, all parameters with non-empty ranges", "why_tests_cant": "The script draws 100 graphs with one density; whether a chosen node has an arc depends on the draw, and nothing reports an unbalanced problem.", "anchors": ["src/gimpy/examples/simplex_test.py:generate_graph"]}
{"id": "C111", "title": "the network simplex of simplex_test.py agrees with the one of the library", "statement": "The method network_simplex of mGraph, a copy of the loop of Graph.network_simplex with the marking of the arcs in another place and without redrawing, returns the same flow and the same verdict on every connected problem. If the root is not a node, it raises AttributeError; if arcs out of reach of the root contain a cycle it raises TypeError.", "quantifier": "all problems in the scope of min_cost_flow, all roots, both pivot rules, all lawful queues, any number of pivots", "why_tests_cant": "The copy is only run on generated graphs; nothing compares it with the method of the library.", "anchors": ["src/gimpy/examples/simplex_test.py:mGraph.network_simplex", "src/gimpy/graph.py:Graph.network_simplex"]}
{"id": "C112", "title": "the script that compares network simplex with an LP solver reports what it found", "statement": "simplex_test.py prints 'All problems solved accurately.' only if for every problem that network simplex calls feasible both pivot rules and the LP solver give the same cost; the linear program it builds is the minimum cost flow problem.", "quantifier": "all lists of seeds, all random number generators, all LP solvers that return the optimal value where there is one", "why_tests_cant": "Whether an earlier disagreement is forgotten depends on the order of the problems; the output of the script is all that a test sees.", "anchors": ["src/gimpy/examples/simplex_test.py:206-259", "src/gimpy/examples/simplex_test.py:solve", "src/gimpy/examples/simplex_test.py:get_obj_value"]}
{"id": "C113", "title": "network simplex never returns a wrong answer, connected or not", "statement": "On every minimum cost flow problem in scope, connected or not, and from any root, network_simplex returns True with a feasible flow of least cost, returns False when there is no feasible flow, keeps pivoting, or raises KeyError or TypeError. It raises only if the root is not in one component with all the arcs and the first node, so nodes without arcs do no harm; min_cost_flow without a root raises exactly if some arc is not connected to the first node.", "quantifier": "all problems in the scope of min_cost_flow with no potentials left from earlier calls, all roots, both pivot rules, all lawful queues, any positive number of pivots", "why_tests_cant": "The examples are connected; the role of the first node of the list shows only when it has no arcs.", "anchors": ["src/gimpy/graph.py:Graph.network_simplex", "src/gimpy/graph.py:Graph.simplex_find_tree", "src/gimpy/graph.py:Graph.min_cost_flow"]}
{"id": "C114", "title": "max_flow with a queue needs a number of augmentations that does not depend on the capacities", "statement": "max_flow with algo 'BFS' ends after at most |E|(|V|+1) augmentations, whatever the non-negative integer capacities, so with capacity INF or 10^9 as well; the flow is then maximum if there are no antiparallel arcs.", "quantifier": "all digraphs, antiparallel arcs and self loops included, all non-negative integer capacities, all source and sink nodes, all lawful first-in first-out queues", "why_tests_cant": "A run that takes one unit of flow at a time also passes tests with small capacities; the bound is on all runs.", "anchors": ["src/gimpy/graph.py:Graph.max_flow"]}
{"id": "C115", "title": "fifo_label_correcting takes at most n(n-1)+1 nodes out of its queue", "statement": "For n nodes the while loop of fifo_label_correcting makes at most n(n-1)+1 turns, whatever the integer costs and whether or not there is a negative cycle, and the loops that follow predecessors at most n+2 turns each; so a negative cycle is found without regard to how small its cost is.", "quantifier": "all graphs built by the API, all integer costs, all sources, with the comparison of 'inf' of Python 2 and of Python 3", "why_tests_cant": "An infinite loop or a number of turns that grows with the costs shows only on long runs; the bound is on all runs.", "anchors": ["src/gimpy/graph.py:Graph.fifo_label_correcting", "src/gimpy/graph.py:Graph.label_correcting_check_cycle", "src/gimpy/graph.py:Graph.label_correcting_get_cycle"]}
{"id": "C116", "title": "The iterations of max_flow_preflowpush are bounded without the capacities", "statement": "On a digraph with n nodes and m arcs, non-negative integer capacities and neither antiparallel arcs nor self loops, in which every node joined to the source by an arc of positive capacity can reach the sink, 12(n+1)^5(n+m+1) iterations of the main loop of max_flow_preflowpush are enough, however large the capacities are.", "quantifier": "all such networks and capacities, the three algorithms, all queue orders", "why_tests_cant": "the bound is uniform in infinitely many capacities", "anchors": ["src/gimpy/graph.py:Graph.max_flow_preflowpush", "src/gimpy/graph.py:Graph.relabel"]}
{"id": "C117", "title": "The value of the type argument decides whether a graph is directed", "statement": "For every string equal to 'digraph' or 'graph' given as type, whether or not it is the constant itself, the graph takes the edit calls as a directed or an undirected graph does; every other string is refused by the constructor.", "quantifier": "all strings and string objects, all histories of edit calls", "why_tests_cant": "objects that are equal but not identical, and all histories", "anchors": ["src/gimpy/graph.py:Graph.__init__", "src/gimpy/graph.py:Graph.add_edge", "src/gimpy/graph.py:Graph.del_node", "src/gimpy/graph.py:Graph.check_edge"]}
{"id": "C118", "title": "The text of to_string with clusters reads back as the graph and its clusters", "statement": "For a graph with clusters whose nodes are different nodes of the graph, the text that to_string writes is a DOT graph of the same kind and name in which each cluster is one subgraph with the cluster's attributes and default node attributes, exactly the cluster's nodes and exactly the edges with both ends in it; the remaining nodes and edges are outside of every subgraph, each stated once with exactly its attributes.", "quantifier": "for every graph built by graph operations, every choice of graph attributes and every list of clusters", "why_tests_cant": "The examples draw one or two fixed clusters and hand the text to Graphviz; no test parses the text or uses a cluster attribute with a blank or a '#'.", "anchors": ["src/gimpy/graph.py:Graph.to_string", "src/gimpy/graph.py:Graph.create_cluster", "src/gimpy/graph.py:Node.to_string", "src/gimpy/global_constants.py:quote_if_necessary"]}
{"id": "C119", "title": "Kruskal's algorithm accepts a disjoint set", "statement": "minimum_spanning_tree_kruskal(components=d) returns the same edges as minimum_spanning_tree_kruskal() for every DisjointSet d, and afterwards two nodes have the same root in d exactly when the returned edges join them.", "quantifier": "for every graph and every DisjointSet made by add, union and find, with and without path compression", "why_tests_cant": "No test passes the argument components, and the calls with a set that was used before are not tried.", "anchors": ["src/gimpy/graph.py:Graph.minimum_spanning_tree_kruskal", "src/gimpy/graph.py:DisjointSet.add", "src/gimpy/graph.py:DisjointSet.union", "src/gimpy/graph.py:DisjointSet.find"]}
{"id": "C120", "title": "dfs and acyclic_shortest_path can be called again", "statement": "dfs(root) visits exactly the nodes reachable from root, whatever was called before on the graph; acyclic_shortest_path gives a cheapest path also when it is called a second time.", "quantifier": "for every graph, every root and every state of the node attributes", "why_tests_cant": "The examples call each method once on a new graph; a second call on the same graph is not tried.", "anchors": ["src/gimpy/graph.py:Graph.dfs", "src/gimpy/graph.py:Graph.acyclic_shortest_path"]}
{"id": "C121", "title": "dfs and label_strong_component work on graphs of any size", "statement": "dfs and label_strong_component, which call themselves, do not exceed Python's recursion limit: whatever the limit and the size of the graph, they return what they would return without a limit.", "quantifier": "for every graph without discovery times or indices, every root and every limit on the number of nested calls", "why_tests_cant": "The tests use graphs with a few nodes; long chains do not occur.", "anchors": ["src/gimpy/graph.py:Graph.dfs", "src/gimpy/graph.py:Graph.strong_connect", "src/gimpy/graph.py:Graph.label_strong_component"]}
{"id": "C122", "title": "The recursion of the binary tree methods is as deep as the tree", "statement": "print_nodes, printexp and postordereval nest as many calls as the tree has levels: they return their result if the tree has at most as many levels as the recursion limit allows, and raise RecursionError otherwise.", "quantifier": "for every binary tree built by the API (printexp: inner nodes with two children and truthy names; postordereval: expressions without a proper subexpression of value 0) and every limit on the number of nested calls", "why_tests_cant": "The tests use trees with a few levels.", "anchors": ["src/gimpy/tree.py:BinaryTree.print_nodes", "src/gimpy/tree.py:BinaryTree.printexp", "src/gimpy/tree.py:BinaryTree.postordereval"]}
{"id": "C123", "title": "BB.py branches on the variable that the rule asks for", "statement": "When a turn of the loop of BB.py makes new subproblems, it makes exactly two. Both are about the variable chosen at the solution of the linear program of the node: with FIXED the first one whose value is not an integer, with MOST_FRAC the first of those whose value is farthest from the integers. The value lies strictly between z and z + 1; the first subproblem has the variable at most z, the second at least z + 1. Both have the priority -depth - 1 with DEPTH_FIRST and the value of the linear program with BEST_FIRST (the lower bound minus one when the program enumerates completely).", "quantifier": "for every instance, correct LP solver, queue, configuration, state of the loop and item taken from the queue", "why_tests_cant": "The example is not tested; it runs on one random instance with one configuration.", "anchors": ["src/gimpy/examples/BB.py"]}
{"id": "C124", "title": "search colours exactly the tree or path that it found", "statement": "The colours that search writes do not influence what it returns. On a graph without self loops, with any algo and queue: when search returns the predecessor dictionary or None, the source and the keys of the predecessors are green, all other nodes black, the edges from the predecessors to their nodes are green and all other edges black. When it returns a path to a destination other than the source, all edges of the path are green, its nodes are green except the destination, which is blue, and no edge outside the tree of predecessors is green. When destination and source are the same, all edges are black.", "quantifier": "for every graph built by edit calls without self loops, algorithm, direction, component, queue, source, destination and earlier colours", "why_tests_cant": "The tests run with display off and never look at the colours.", "anchors": ["src/gimpy/graph.py"]}
{"id": "C125", "title": "search labels the nodes with what it found", "statement": "After search without destination on a graph without self loops, a node that was not reached has the label '-', and a node that was reached has its component as label (BFS and DFS with a component) or else the number that the search found for it: the distance with BFS and DFS (0 for the source), the priority with Dijkstra and Prim. In particular the labels of BFS are the least numbers of edges, those of Dijkstra the least costs, those of Prim the costs of the tree edges.", "quantifier": "for every graph built by edit calls without self loops, algorithm, component, queue, source and earlier labels", "why_tests_cant": "The tests never look at the labels.", "anchors": ["src/gimpy/graph.py"]}
{"id": "C126", "title": "the picture that max_flow leaves shows a minimum cut, the flow and the capacities", "statement": "The colours and labels that max_flow writes do not influence the flow. When it returns on a digraph with non-negative integer capacities (10000 where none is given), no antiparallel arcs and a sink other than the source: the source and the blue nodes are a minimum cut, whose capacity is the value of the flow, and all other nodes are black. The arcs that leave this set are red and full. The arcs that enter it carry no flow and are black, or red if their capacity is 0. Every other arc is black with flow 0, red with full flow or green with any other flow, except that an arc within the set may be blue. No arc is left yellow. The label of an arc is capacity/flow, with INF for an arc without given capacity.", "quantifier": "for every such digraph built by edit calls, every source and sink, every bag-like queue (Stack or Queue) and earlier colours and labels", "why_tests_cant": "The tests check flow values on a few graphs and never look at colours and labels.", "anchors": ["src/gimpy/graph.py"]}
{"id": "C127", "title": "dfs shows the depth-first tree and the times", "statement": "The colours and labels that dfs writes do not influence it. After dfs (without transpose) on a graph without discovery times, each node reached is green and its label is its discovery and finish time, in quotes and separated by a comma; the edges of the depth-first tree are green; all other nodes and edges look as before.", "quantifier": "for every graph built by edit calls, root, component and earlier colours and labels", "why_tests_cant": "The tests never look at colours and labels.", "anchors": ["src/gimpy/graph.py"]}
{"id": "C128", "title": "Kruskal's algorithm colours the edges that it took and refused", "statement": "The colours do not influence minimum_spanning_tree_kruskal. On an undirected graph with costs it looks at the edges by increasing cost, at all of them unless it has found n-1 edges; of those that it looked at the returned ones are green and the others black, and the rest keep their colour.", "quantifier": "for every undirected graph with costs built by edit calls and all earlier colours", "why_tests_cant": "The tests never look at the colours.", "anchors": ["src/gimpy/graph.py"]}
{"id": "C129", "title": "Prim's algorithm colours the tree and labels the nodes with the costs", "statement": "The edge colours and labels do not influence minimum_spanning_tree_prim. On an undirected graph with costs, without self loops and without green nodes, the nodes reached become green, the edges of the returned tree green, the other edges between nodes reached black, and each node reached other than the source gets the cost of its tree edge as label. Everything else looks as before.", "quantifier": "for every such graph built by edit calls, source, priority queue and earlier colours and labels", "why_tests_cant": "The tests never look at colours and labels.", "anchors": ["src/gimpy/graph.py"]}
{"id": "C130", "title": "max_flow_preflowpush leaves a picture of the maximum flow", "statement": "The labels and colours that show_flow writes do not influence max_flow_preflowpush. When it returns, each arc is labelled capacity/flow (INF for capacity 10000) for a maximum flow, is red if it is full, green if it carries flow but is not full, black if it is empty; the sink is labelled V/0 and the source -V/n, where V is the value of the flow and n the number of nodes; every other node is labelled 0/d with a number d.", "quantifier": "for every digraph without antiparallel arcs and with non-negative capacities built by edit calls, source, sink, algo and earlier colours and labels", "why_tests_cant": "The tests never look at colours and labels.", "anchors": ["src/gimpy/graph.py"]}
{"id": "C131", "title": "the distances left by max_flow_preflowpush show a minimum cut", "statement": "When max_flow_preflowpush returns, some natural number below the number of nodes is not the distance of any node; and for every such number L the nodes with distance greater than L are the source side of a minimum cut, whose capacity is the value of the flow.", "quantifier": "for every digraph without antiparallel arcs and with non-negative capacities built by edit calls, source, sink and algo", "why_tests_cant": "The tests look only at the flow values of one graph.", "anchors": ["src/gimpy/graph.py"]}
{"id": "C132", "title": "network_simplex leaves a picture of the minimum cost flow and of its spanning tree", "statement": "The colours and labels that network_simplex writes do not influence it. When it returns True, every arc is labelled flow/capacity/cost for a minimum cost flow, the blue arcs form a spanning tree, and every other arc is black and is empty or full.", "quantifier": "for every connected network in the scope of min_cost_flow, root, pivot rule 'dantzig' or 'first_eligible', and earlier colours and labels", "why_tests_cant": "The tests never look at colours and labels; after a pivot only the arcs of the new tree and the leaving arc are labelled again, so the claim depends on which arcs a pivot can change.", "anchors": ["src/gimpy/graph.py"]}
{"id": "C133", "title": "The PageRank equations have exactly one solution and page_rank finds it", "statement": "For a digraph and a damping factor 0 <= d < 1 the PageRank equations have exactly one solution, its values are at least (1-d)/N, and for every tolerance there are a min_delta and a number of iterations with which the errors of the ranks that page_rank returns add up to at most that tolerance.", "quantifier": "for every digraph built by edit calls, damping factor 0 <= d < 1 and positive tolerance", "why_tests_cant": "Existence and uniqueness of the limit and arbitrary precision are statements about all graphs and all tolerances; a test compares a few numbers.", "anchors": ["src/gimpy/graph.py:Graph.page_rank"]}
{"id": "C134", "title": "Page ranks add up to one", "statement": "The solution of the PageRank equations adds up to 1, and so do, up to d/(1-d)*min_delta, the ranks that page_rank returns after it converged. False: a node without outgoing arcs loses its rank, so for every digraph with such a node the sum is less than 1.", "quantifier": "for every non-empty digraph built by edit calls, damping factor 0 <= d < 1 (0 < d < 1 for the negation), positive min_delta", "why_tests_cant": "The in-place update changes the sum during a sweep, so the sum of a returned table is exact only in the limit; no test calls page_rank.", "anchors": ["src/gimpy/graph.py:Graph.page_rank"]}
{"id": "C135", "title": "cycle_canceling ends", "statement": "cycle_canceling ends after at most one round more than the costs of two flows can differ, with a minimum cost flow, or False when there is no feasible flow. False: get_negative_cycle may return a cycle of cost 0, or raise, and then the loop can run for ever. What holds: it ends so, unless after at most that many rounds, each of which cancelled a cycle of negative cost, get_negative_cycle fails or returns a cycle whose cost is not negative.", "quantifier": "for every network without antiparallel arcs or self loops, with costs, non-negative capacities, balanced demands and a supply node", "why_tests_cant": "Termination within a bound concerns all networks; the tests run a few small random ones.", "anchors": ["src/gimpy/graph.py:Graph.cycle_canceling", "src/gimpy/graph.py:Graph.get_negative_cycle"]}
{"id": "C136", "title": "distances, components and diameter are those of the simple graph", "statement": "On an undirected graph, let G be the simple graph (Mathlib's SimpleGraph) of its nodes and edges without self loops. BFS search gives every node reachable in G its distance in G, and paths of that length; label_components reports as many components as G has, with equal labels exactly inside a component; get_diameter is 'infinity' exactly when G is not connected and otherwise the diameter of G.", "quantifier": "for every undirected graph built by edit calls (with self loops or not), every source and destination", "why_tests_cant": "Ties the results to definitions that were not written for this project; all graphs.", "anchors": ["src/gimpy/graph.py:Graph.search", "src/gimpy/graph.py:Graph.label_components", "src/gimpy/graph.py:Graph.get_diameter"]}
{"id": "C137", "title": "the spanning tree methods return trees of least cost in the sense of SimpleGraph", "statement": "The edges returned by minimum_spanning_tree_kruskal on a graph whose simple graph is connected, and the predecessor links of minimum_spanning_tree_prim, form a tree (Mathlib's SimpleGraph.IsTree: connected and acyclic) inside the graph, and no other tree on the same nodes made of edges of the graph has smaller total cost.", "quantifier": "for every undirected graph built by edit calls with a cost for each edge (for Prim without self loops and without green nodes)", "why_tests_cant": "Minimality over all trees; acyclicity follows only from a counting argument.", "anchors": ["src/gimpy/graph.py:Graph.minimum_spanning_tree_kruskal", "src/gimpy/graph.py:Graph.minimum_spanning_tree_prim"]}
{"id": "C138", "title": "a source or sink that is not in the graph is refused", "statement": "search, bfs, dfs, acyclic_shortest_path, minimum_spanning_tree_prim, fifo_label_correcting, max_flow and max_flow_preflowpush raise an exception when the node to start from, or the sink of a flow, is not a node of the graph (no answer is returned for it). max_flow also raises when source and sink are the same node.", "quantifier": "for every graph built through the API, every name that is not one of its nodes, every queue and every old state of the attributes", "why_tests_cant": "tests call these methods with nodes of the graph; for max_flow a missing sink looks like a sink that cannot be reached", "anchors": ["src/gimpy/graph.py:Graph.search", "src/gimpy/graph.py:Graph.dfs", "src/gimpy/graph.py:Graph.max_flow", "src/gimpy/graph.py:Graph.max_flow_preflowpush", "src/gimpy/graph.py:Graph.minimum_spanning_tree_prim", "src/gimpy/graph.py:Graph.fifo_label_correcting", "src/gimpy/graph.py:Graph.acyclic_shortest_path"]}
{"id": "C139", "title": "a maximum flow is a largest family of paths", "statement": "The flow that max_flow leaves, and that of max_flow_preflowpush whenever it returns, contains as many paths from the source to the sink, without repeated nodes, as its value says, no arc lying on more of them than it has flow; and no family of routes from the source to the sink that respects the capacities has more members.", "quantifier": "for every digraph built through the API without antiparallel arcs, all non-negative integer capacities, all source and sink nodes and every queue discipline", "why_tests_cant": "the number of families of routes is infinite; tests compare one number on a few networks", "anchors": ["src/gimpy/graph.py:Graph.max_flow", "src/gimpy/graph.py:Graph.max_flow_preflowpush"]}
{"id": "C140", "title": "with capacities 1, max_flow finds arc-disjoint paths and a smallest set of separating arcs", "statement": "If every capacity is 1, the value k of the flow of max_flow is the greatest number of routes from source to sink without a common arc (k such paths use only arcs with flow 1) and the least number of arcs whose removal leaves no route from source to sink. The same holds for the flow of max_flow_preflowpush whenever it returns.", "quantifier": "for every digraph built through the API without antiparallel arcs, with capacities 1, and every queue discipline", "why_tests_cant": "the families of paths and the separating sets cannot be enumerated by a test", "anchors": ["src/gimpy/graph.py:Graph.max_flow", "src/gimpy/graph.py:Graph.max_flow_preflowpush"]}
{"id": "C141", "title": "the forestry script builds and labels the network of the problem", "statement": "The script raises nothing while building its graph; the graph has exactly the nodes and arcs of the harvest network (source, forests, production of each forest in each year, years, sink, storage arcs between years of a forest), every node has the text that names its forest and year counted from 1, arcs to the sink carry the demands, arcs from a forest to its production the harvests, and no other arc has a capacity.", "quantifier": "for all numbers of years and forests and all demands and harvests", "why_tests_cant": "the script runs on one set of random numbers", "anchors": ["src/gimpy/examples/forestry.py"]}
{"id": "C142", "title": "the potentials that network_simplex leaves solve the dual linear program", "statement": "When network_simplex returns True, every node has a potential, that of the root is 0, no arc that is not full costs less than the potential falls along it and no arc that carries flow costs more; the potentials are an optimal solution of the dual of the linear program of minimum cost flow, over every ordered field, and its value is the cost of the flow. When it returns False the potentials are as before.", "quantifier": "for every connected network in the scope of min_cost_flow, root, pivot rule 'dantzig' or 'first_eligible', queue, earlier potentials and number of pivots", "why_tests_cant": "tests look at flows of single networks; nothing reads the potentials after the call", "anchors": ["src/gimpy/graph.py:Graph.network_simplex", "src/gimpy/graph.py:Graph.simplex_compute_potentials", "src/gimpy/graph.py:Graph.simplex_optimal"]}
{"id": "C143", "title": "page_rank() with its default arguments always converges", "statement": "page_rank ends by its convergence test in iteration k+1 at the latest if 2(1+d)d^k < (1-d) min_delta, whatever the size of the graph; with the default arguments (0.85, 100 iterations, 0.00001) this always happens, after 92 iterations at most, and the errors of the ranks add up to less than 0.0001 (over exact arithmetic).", "quantifier": "for all digraphs built through the API, all damping factors 0<=d<1 and tolerances", "why_tests_cant": "a test sees the iterations of single graphs and does not know the exact ranks", "anchors": ["src/gimpy/graph.py:Graph.page_rank"]}
{"id": "C144", "title": "Clusters keep what they were made from, whatever the caller does with the objects later", "statement": "Every call of create_cluster adds a cluster, and at the end every cluster has the nodes and attributes that its arguments had at the time of the call, whatever lists and dictionaries the caller shares between the calls and changes after them. Only partly so: the dictionaries are copied, but the list is kept by reference, so later changes of the list change the cluster; and the name is written into the caller's dictionary, so a second call with the same dictionary replaces the first cluster.", "quantifier": "for all sequences of calls and of changes to the dictionaries and lists, on all contents of the objects", "why_tests_cant": "a test uses fresh literals for every call; sharing and later changes of objects are not tried", "anchors": ["src/gimpy/graph.py:Graph.create_cluster"]}
{"id": "C145", "title": "Arcs can be deleted in a loop over the out-neighbours of a node", "statement": "The loop 'for n in g.get_out_neighbors(m): g.del_edge((m, n))' deletes all arcs out of m and nothing else. Not so: get_out_neighbors returns the list of the graph itself, from which del_edge removes, so the loop deletes exactly every second arc and leaves the others, without an exception. Over a copy of the list it deletes them all.", "quantifier": "for all digraphs built by any sequence of API calls and all their nodes", "why_tests_cant": "a test on a node with one arc succeeds; that exactly half of the arcs remain for every degree needs an invariant of the loop", "anchors": ["src/gimpy/graph.py:Graph.get_out_neighbors", "src/gimpy/graph.py:Graph.del_edge"]}
{"id": "C146", "title": "A graph can be emptied in a loop over get_edge_list or get_node_list", "statement": "The loop that deletes every edge of get_edge_list() ends without an exception and leaves the nodes with their attributes, no edges and no neighbours, on directed and undirected graphs. The loop that deletes every node of get_node_list() of a digraph ends without an exception and leaves the graph exactly as a new one.", "quantifier": "for all graphs built by any sequence of API calls (undirected: without del_node, which is C05)", "why_tests_cant": "a test empties a few graphs; that no call of the loop raises on any graph needs an invariant", "anchors": ["src/gimpy/graph.py:Graph.get_edge_list", "src/gimpy/graph.py:Graph.get_node_list", "src/gimpy/graph.py:Graph.del_edge", "src/gimpy/graph.py:Graph.del_node"]}
{"id": "C147", "title": "del_edge undoes add_edge and del_node undoes add_node", "statement": "add_edge between two nodes without an edge followed by del_edge of that edge (on undirected graphs in either orientation, loops included) succeeds and leaves the graph exactly as it was: nodes, edges, neighbours, attributes, and the order of all of them. On digraphs so does add_node with a new name followed by del_node.", "quantifier": "for all graphs built by any sequence of API calls (undirected: without del_node, which is C05), all nodes and attributes", "why_tests_cant": "a test compares a few graphs and rarely the order inside all four dictionaries", "anchors": ["src/gimpy/graph.py:Graph.add_edge", "src/gimpy/graph.py:Graph.del_edge", "src/gimpy/graph.py:Graph.add_node", "src/gimpy/graph.py:Graph.del_node"]}
{"id": "C148", "title": "search trees are trees, and those of BFS keep the distances", "statement": "On an undirected graph the predecessors that search returns for BFS over a FIFO queue form a tree (a connected acyclic simple graph in Mathlib's sense) on exactly the nodes reachable from the source, with edges of the graph, and the distance of every node from the source in the tree is its distance in the graph. Without self loops the predecessors of DFS and BFS over any queue other than a PriorityQueue form such a tree as well.", "quantifier": "for all undirected graphs built through the API without del_node, all sources and all lawful queues", "why_tests_cant": "a test inspects single trees; distances in the tree and in the graph range over all walks", "anchors": ["src/gimpy/graph.py:Graph.search", "src/gimpy/graph.py:Graph.process_edge_search"]}
