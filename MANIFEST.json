{
 "claims": [
  {
   "property": "C01",
   "status": "proved",
   "theorems": [
    "GiMPy.C01_digraph_views"
   ],
   "note": "all histories, including raising calls"
  },
  {
   "property": "C02",
   "status": "proved",
   "theorems": [
    "GiMPy.C02_undirected_views"
   ],
   "note": "histories without del_node, as stated"
  },
  {
   "property": "C03",
   "status": "proved",
   "theorems": [
    "GiMPy.C03_refines_simple_graph",
    "GiMPy.C03_counts"
   ],
   "note": "undirected del_node excluded (see C05)"
  },
  {
   "property": "C04",
   "status": "proved",
   "theorems": [
    "GiMPy.C04_raising_call_changes_nothing"
   ],
   "note": ""
  },
  {
   "property": "C05",
   "status": "partial",
   "theorems": [
    "GiMPy.C05_false_always_raises",
    "GiMPy.C05_false_corrupts",
    "GiMPy.C05_lists_after_failure_partial"
   ],
   "note": "false of the code: every undirected del_node raises; negation proved"
  },
  {
   "property": "C06",
   "status": "proved",
   "theorems": [
    "GiMPy.C06_del_node_exact"
   ],
   "note": ""
  },
  {
   "property": "C07",
   "status": "proved",
   "theorems": [
    "GiMPy.C07_reads_return_last_write",
    "GiMPy.C07_cost",
    "GiMPy.C07_capacity",
    "GiMPy.C07_demand",
    "GiMPy.C07_number",
    "GiMPy.C07_flow",
    "GiMPy.C07_get_node"
   ],
   "note": "C07_cost, C07_capacity, C07_demand, C07_number and C07_flow say what the hypotheses on costs, capacities, demands and flows in the other claims mean."
  },
  {
   "property": "C08",
   "status": "proved",
   "theorems": [
    "GiMPy.C08_search_tree"
   ],
   "note": "for every queue satisfying LawfulBag that is not a PriorityQueue; fuel bound = nodes + sum of degrees + 2; links leading back needs no self loops for algo='DFS'"
  },
  {
   "property": "C09",
   "status": "proved",
   "theorems": [
    "GiMPy.C09_search_path",
    "GiMPy.C09_self_loop_diverges"
   ],
   "note": "C09_self_loop_diverges shows the exclusion of self loops is necessary: the real code loops forever"
  },
  {
   "property": "C10",
   "status": "proved",
   "theorems": [
    "GiMPy.C10_bfs_shortest"
   ],
   "note": "for every LawfulFIFO queue"
  },
  {
   "property": "C100",
   "status": "proved",
   "theorems": [
    "GiMPy.BB.C100_depth_first"
   ],
   "note": ""
  },
  {
   "property": "C101",
   "status": "partial",
   "theorems": [
    "GiMPy.BB.C101_not_best",
    "GiMPy.BB.C101_bounds",
    "GiMPy.BB.C101_least_bound_partial"
   ],
   "note": "False: the queue gives the least priority, which is the worst bound, since the problem is a maximisation. The partial theorem says so for every state."
  },
  {
   "property": "C102",
   "status": "partial",
   "theorems": [
    "GiMPy.BB.C102_sentinel",
    "GiMPy.BB.C102_printed_partial"
   ],
   "note": "False without a solution above -9999; otherwise true."
  },
  {
   "property": "C103",
   "status": "partial",
   "theorems": [
    "GiMPy.C103_highest_partial",
    "GiMPy.C103_not_highest"
   ],
   "note": "False: the neighbours of the source are put into the queue with priority -1 whatever their distance. True for all other nodes, so from the turn on at which the neighbours of the source have been taken."
  },
  {
   "property": "C104",
   "status": "partial",
   "theorems": [
    "GiMPy.C104_integer_names_partial",
    "GiMPy.C104_other_names",
    "GiMPy.C104_no_numeral",
    "GiMPy.C104_some_without_number",
    "GiMPy.C104_numeral",
    "GiMPy.C104_identity"
   ],
   "note": "False: with names that are no integers it never returns True (ValueError or AttributeError when there is a feasible flow; ValueError on a connected network as soon as one name has no number); with integers that are equal but not identical objects it can raise KeyError or Exception. Proved for integers with one object per name."
  },
  {
   "property": "C105",
   "status": "partial",
   "theorems": [
    "GiMPy.C105_free_arcs_partial",
    "GiMPy.C105_false"
   ],
   "note": "False when more than 10000 can be sent through an arc without capacity, because 10000 is stored for it. Proved when a cut of arcs with capacities has at most 10000, or the value found is less than 10000."
  },
  {
   "property": "C106",
   "status": "proved",
   "theorems": [
    "GiMPy.Forestry.C106_forestry",
    "GiMPy.Forestry.C106_bound_needed"
   ],
   "note": "C106_bound_needed shows that the bound on the total demand is needed"
  },
  {
   "property": "C107",
   "status": "proved",
   "theorems": [
    "GiMPy.C107_min_cost_flow_lp",
    "GiMPy.C107_max_flow_lp"
   ],
   "note": "for values in every ordered field; connected problems as in C63"
  },
  {
   "property": "C108",
   "status": "proved",
   "theorems": [
    "GiMPy.C108_infeasible_certificate"
   ],
   "note": ""
  },
  {
   "property": "C109",
   "status": "proved",
   "theorems": [
    "GiMPy.C109_not_connected",
    "GiMPy.C109_both_occur"
   ],
   "note": "no potentials from earlier calls; networks whose only parts apart are single nodes without arcs are not covered"
  },
  {
   "property": "C11",
   "status": "proved",
   "theorems": [
    "GiMPy.C11_dijkstra",
    "GiMPy.C11_self_loop"
   ],
   "note": "for every LawfulPQ (any tie-breaking), forward search, graphs without self loops; C11_self_loop shows that the exclusion is needed"
  },
  {
   "property": "C110",
   "status": "partial",
   "theorems": [
    "GiMPy.C110_generate",
    "GiMPy.C110_sum",
    "GiMPy.C110_in_scope_partial",
    "GiMPy.C110_not_balanced"
   ],
   "note": "False in general: a chosen node need not be in the graph, then the demands are not balanced (witness). The rest is proved for all draws, and balance when all chosen nodes exist."
  },
  {
   "property": "C111",
   "status": "proved",
   "theorems": [
    "GiMPy.C111_same",
    "GiMPy.C111_cycle_apart",
    "GiMPy.C111_no_root"
   ],
   "note": ""
  },
  {
   "property": "C112",
   "status": "partial",
   "theorems": [
    "GiMPy.C112_script_partial",
    "GiMPy.C112_program",
    "GiMPy.C112_message",
    "GiMPy.C112_message_false"
   ],
   "note": "False: the message depends on the last problem only (C112_message), and is printed although an earlier problem has no solution and the values differ (C112_message_false). Proved if all the problems are connected and contain node 0 and the chosen nodes."
  },
  {
   "property": "C113",
   "status": "proved",
   "theorems": [
    "GiMPy.C113_any_network",
    "GiMPy.C113_joined",
    "GiMPy.C113_default_root",
    "GiMPy.C113_first_node"
   ],
   "note": ""
  },
  {
   "property": "C114",
   "status": "proved",
   "theorems": [
    "GiMPy.C114_bfs_passes",
    "GiMPy.C114_bfs_maximum"
   ],
   "note": ""
  },
  {
   "property": "C115",
   "status": "proved",
   "theorems": [
    "GiMPy.C115_label_correcting_turns"
   ],
   "note": ""
  },
  {
   "property": "C116",
   "status": "proved",
   "theorems": [
    "GiMPy.C116_preflow_iterations"
   ],
   "note": ""
  },
  {
   "property": "C117",
   "status": "partial",
   "theorems": [
    "GiMPy.C117_constants_partial",
    "GiMPy.C117_false_add_edge"
   ],
   "note": "False: the object is compared by identity, so with an equal string that is another object (read from a file, say) every add_edge raises AttributeError after entering the edge (all histories without del_node). Proved for the constants themselves."
  },
  {
   "property": "C118",
   "status": "partial",
   "theorems": [
    "GiMPy.C118_clusters_read_back_partial",
    "GiMPy.C118_false"
   ],
   "note": "False: of the cluster attributes only the label is quoted, so color='light blue' or '#0000ff' on a cluster gives a text that is no DOT graph. Proved when the other cluster attributes need no quotes, for the clusterings for which C46 holds."
  },
  {
   "property": "C119",
   "status": "partial",
   "theorems": [
    "GiMPy.C119_given_components_partial",
    "GiMPy.C119_false"
   ],
   "note": "False when a node of the graph is already an item of the set: components.add raises MultipleNodeException for every such set and graph, so a partition cannot be given and a set cannot be used twice. Proved for every set without such items: the result is that of the call without components, and the set ends as the partition into the trees."
  },
  {
   "property": "C12",
   "status": "proved",
   "theorems": [
    "GiMPy.C12_prim_search",
    "GiMPy.C12_self_loop"
   ],
   "note": "for every LawfulPQ; negative costs allowed; graphs without self loops, C12_self_loop shows that the exclusion is needed"
  },
  {
   "property": "C120",
   "status": "partial",
   "theorems": [
    "GiMPy.C120_dfs_any_state_partial",
    "GiMPy.C120_false",
    "GiMPy.C120_false_acyclic"
   ],
   "note": "False: discovery times are never reset, so a second dfs from a node that the first one reached visits this node only, and a second acyclic_shortest_path raises IndexError (for every acyclic digraph of two or more nodes that C19 is about). Proved: what dfs visits from any state."
  },
  {
   "property": "C121",
   "status": "partial",
   "theorems": [
    "GiMPy.C121_dfs_depth_partial",
    "GiMPy.C121_strong_depth_partial",
    "GiMPy.C121_false"
   ],
   "note": "False: for every limit there are a digraph and an undirected graph with one node more than the limit on which both methods raise RecursionError. Proved: with at most as many nodes as the limit both methods never raise it; if a node is as many edges away from the root (the first node) as the limit, they always do; otherwise the result is that without a limit or RecursionError."
  },
  {
   "property": "C122",
   "status": "proved",
   "theorems": [
    "GiMPy.C122_print_nodes",
    "GiMPy.C122_printexp",
    "GiMPy.C122_postordereval"
   ],
   "note": "The limit counts the nested calls of the method itself."
  },
  {
   "property": "C123",
   "status": "proved",
   "theorems": [
    "GiMPy.BB.C123_branching"
   ],
   "note": ""
  },
  {
   "property": "C124",
   "status": "proved",
   "theorems": [
    "GiMPy.C124_search_picture",
    "GiMPy.C124_self_loop"
   ],
   "note": "the second theorem shows that the exclusion of self loops is needed"
  },
  {
   "property": "C125",
   "status": "partial",
   "theorems": [
    "GiMPy.C125_false",
    "GiMPy.C125_search_labels_partial",
    "GiMPy.C125_bfs_labels_partial",
    "GiMPy.C125_dijkstra_labels_partial"
   ],
   "note": "false of the code for BFS and DFS over a PriorityQueue: labels stay '-'; proved for the other cases"
  },
  {
   "property": "C126",
   "status": "proved",
   "theorems": [
    "GiMPy.C126_max_flow_picture"
   ],
   "note": ""
  },
  {
   "property": "C127",
   "status": "proved",
   "theorems": [
    "GiMPy.C127_dfs_picture"
   ],
   "note": ""
  },
  {
   "property": "C128",
   "status": "proved",
   "theorems": [
    "GiMPy.C128_kruskal_picture"
   ],
   "note": ""
  },
  {
   "property": "C129",
   "status": "proved",
   "theorems": [
    "GiMPy.C129_prim_picture"
   ],
   "note": ""
  },
  {
   "property": "C13",
   "status": "partial",
   "theorems": [
    "GiMPy.C13_false",
    "GiMPy.C13_bfs_marks_reachable_partial"
   ],
   "note": "claim is false of the code: bfs() runs search with algo='DFS'; proved instead that exactly the reachable nodes get a distance"
  },
  {
   "property": "C130",
   "status": "proved",
   "theorems": [
    "GiMPy.C130_preflow_picture"
   ],
   "note": "for runs that return; see C64 for when they do"
  },
  {
   "property": "C131",
   "status": "proved",
   "theorems": [
    "GiMPy.C131_preflow_distances_show_cut"
   ],
   "note": "for runs that return; see C64 for when they do"
  },
  {
   "property": "C132",
   "status": "proved",
   "theorems": [
    "GiMPy.C132_simplex_picture"
   ],
   "note": "for runs that return; see C62 for when they do"
  },
  {
   "property": "C133",
   "status": "proved",
   "theorems": [
    "GiMPy.C133_page_rank_solution"
   ],
   "note": "over the rational numbers"
  },
  {
   "property": "C134",
   "status": "partial",
   "theorems": [
    "GiMPy.C134_ranks_add_up_partial",
    "GiMPy.C134_dangling_loses"
   ],
   "note": "false of the code: a node without outgoing arcs loses its rank (proved for every such digraph); proved for digraphs in which an arc leaves every node"
  },
  {
   "property": "C135",
   "status": "partial",
   "theorems": [
    "GiMPy.C135_cancel_ends_partial",
    "GiMPy.C36_may_not_terminate"
   ],
   "note": "false of the code: the loop can run for ever because get_negative_cycle may return a cycle that is not negative (C36_may_not_terminate, C35_false_cost); proved up to exactly that defect, with a bound on the rounds"
  },
  {
   "property": "C136",
   "status": "proved",
   "theorems": [
    "GiMPy.C136_distances",
    "GiMPy.C136_components",
    "GiMPy.C136_diameter"
   ],
   "note": ""
  },
  {
   "property": "C137",
   "status": "proved",
   "theorems": [
    "GiMPy.C137_kruskal",
    "GiMPy.C137_prim"
   ],
   "note": ""
  },
  {
   "property": "C138",
   "status": "partial",
   "theorems": [
    "GiMPy.C138_missing_source_partial",
    "GiMPy.C138_missing_sink_unnoticed",
    "GiMPy.C138_source_is_sink"
   ],
   "note": "False for the sink of max_flow: C138_missing_sink_unnoticed proves that it returns the zero flow for a sink that is not a node. Proved for all the other methods and names. For Prim the queue is empty at the call."
  },
  {
   "property": "C139",
   "status": "proved",
   "theorems": [
    "GiMPy.C139_most_paths",
    "GiMPy.C139_preflow_paths"
   ],
   "note": "A family of routes is a list of lists of arcs (Spec/Routes.lean), independent of flows. For preflow push the statement is about the calls that return (C64 and C116 say when)."
  },
  {
   "property": "C14",
   "status": "proved",
   "theorems": [
    "GiMPy.C14_label_components",
    "GiMPy.C14_digraph_raises"
   ],
   "note": ""
  },
  {
   "property": "C140",
   "status": "proved",
   "theorems": [
    "GiMPy.C140_disjoint_paths",
    "GiMPy.C140_preflow_disjoint"
   ],
   "note": "Digraphs without antiparallel arcs, capacities 1; for max_flow_preflowpush: whenever it returns (see C64)."
  },
  {
   "property": "C141",
   "status": "proved",
   "theorems": [
    "GiMPy.Forestry.C141_forestry_network"
   ],
   "note": "Attributes of the graph itself (layout) are not modelled."
  },
  {
   "property": "C142",
   "status": "proved",
   "theorems": [
    "GiMPy.C142_potentials_solve_dual"
   ],
   "note": "Says nothing if the pivots do not suffice (C62, C113 say when they do)."
  },
  {
   "property": "C143",
   "status": "proved",
   "theorems": [
    "GiMPy.C143_page_rank_iterations",
    "GiMPy.C143_defaults_converge"
   ],
   "note": "Rational arithmetic; the rounding of floats is not modelled."
  },
  {
   "property": "C144",
   "status": "partial",
   "theorems": [
    "GiMPy.Misc.C144_clusters_keep_partial",
    "GiMPy.Misc.C144_dict_reused",
    "GiMPy.Misc.C144_list_shared",
    "GiMPy.Misc.C144_false_dict",
    "GiMPy.Misc.C144_false_list"
   ],
   "note": "False of the code as stated: C144_dict_reused and C144_list_shared show for all states how it fails, with witnesses. Proved for callers that change no list after giving it away and whose names at the times of the calls differ; dictionaries may be shared and changed freely."
  },
  {
   "property": "C145",
   "status": "partial",
   "theorems": [
    "GiMPy.C145_live_loop",
    "GiMPy.C145_delete_all_partial",
    "GiMPy.C145_false"
   ],
   "note": "False of the code as stated: C145_live_loop says for all digraphs exactly which arcs remain. Proved for a loop over a copy of the list and for at most one arc (and only then)."
  },
  {
   "property": "C146",
   "status": "proved",
   "theorems": [
    "GiMPy.C146_clear_edges",
    "GiMPy.C146_clear_nodes"
   ],
   "note": "get_edge_list and get_node_list return new lists, so the loops run over snapshots."
  },
  {
   "property": "C147",
   "status": "proved",
   "theorems": [
    "GiMPy.C147_del_edge_undoes",
    "GiMPy.C147_del_node_undoes"
   ],
   "note": "Equality of the whole state of the model, including orders."
  },
  {
   "property": "C148",
   "status": "proved",
   "theorems": [
    "GiMPy.C148_bfs_tree",
    "GiMPy.C148_search_tree"
   ],
   "note": "The tree is SimpleGraph.IsTree, the distances are SimpleGraph.dist."
  },
  {
   "property": "C15",
   "status": "proved",
   "theorems": [
    "GiMPy.C15_strong_components"
   ],
   "note": "Python's recursion limit not modelled"
  },
  {
   "property": "C16",
   "status": "partial",
   "theorems": [
    "GiMPy.C16_relabel_unchanged_partial",
    "GiMPy.C16_false_relabel_does_nothing",
    "GiMPy.C16_false_concrete"
   ],
   "note": "false of the code: 'index' is never reset, so a second call changes no label of an indexed node, restarts the labels at 0 and sets num_components to 0; proved for all graphs. Proved: without edits the labels stay right"
  },
  {
   "property": "C17",
   "status": "proved",
   "theorems": [
    "GiMPy.C17_dfs_times"
   ],
   "note": "transpose=False; Python's recursion limit not modelled"
  },
  {
   "property": "C18",
   "status": "proved",
   "theorems": [
    "GiMPy.C18_topological_order"
   ],
   "note": ""
  },
  {
   "property": "C19",
   "status": "proved",
   "theorems": [
    "GiMPy.C19_acyclic_shortest_path",
    "GiMPy.C19_predecessors"
   ],
   "note": "integer costs; with and without a destination"
  },
  {
   "property": "C20",
   "status": "proved",
   "theorems": [
    "GiMPy.C20_mst_prim"
   ],
   "note": "no node green beforehand (e.g. no colours at all); queue laws of blimpy's PriorityQueue assumed (Spec/Queue.lean)"
  },
  {
   "property": "C21",
   "status": "partial",
   "theorems": [
    "GiMPy.C21_mst_prim_history_partial",
    "GiMPy.C21_false_second_call_empty",
    "GiMPy.C21_false_concrete"
   ],
   "note": "false of the code: colours are never reset, so a second call returns the empty dictionary; proved for all graphs. Proved: only the set of green nodes matters"
  },
  {
   "property": "C22",
   "status": "proved",
   "theorems": [
    "GiMPy.C22_kruskal"
   ],
   "note": "integer costs; the sort is modelled as a stable insertion sort by cost"
  },
  {
   "property": "C23",
   "status": "proved",
   "theorems": [
    "GiMPy.C23_find_same"
   ],
   "note": "items added must be fresh; Python's recursion limit not modelled"
  },
  {
   "property": "C24",
   "status": "proved",
   "theorems": [
    "GiMPy.C24_union_sizes"
   ],
   "note": ""
  },
  {
   "property": "C25",
   "status": "proved",
   "theorems": [
    "GiMPy.C25_log_depth"
   ],
   "note": ""
  },
  {
   "property": "C26",
   "status": "proved",
   "theorems": [
    "GiMPy.C26_max_flow_feasible"
   ],
   "note": "antiparallel arcs and self loops allowed"
  },
  {
   "property": "C27",
   "status": "proved",
   "theorems": [
    "GiMPy.C27_max_flow_maximum",
    "GiMPy.C27_antiparallel_arcs_matter"
   ],
   "note": "the stated condition, no antiparallel arcs, is shown to be needed; total: the fuel bound is explicit"
  },
  {
   "property": "C28",
   "status": "proved",
   "theorems": [
    "GiMPy.C28_preflow_max",
    "GiMPy.C28_antiparallel_diverges"
   ],
   "note": "for every lawful queue and each algo: no exception, and whenever the loop ends the flow is maximum; the second theorem shows that without the hypothesis on antiparallel arcs the loop never ends"
  },
  {
   "property": "C29",
   "status": "proved",
   "theorems": [
    "GiMPy.C29_max_flow_agree"
   ],
   "note": "whenever preflow-push returns"
  },
  {
   "property": "C30",
   "status": "proved",
   "theorems": [
    "GiMPy.C30_residual_graph",
    "GiMPy.C30_antiparallel_raises",
    "GiMPy.C30_undirected_raises"
   ],
   "note": "the second theorem shows that antiparallel arcs must be excluded"
  },
  {
   "property": "C31",
   "status": "proved",
   "theorems": [
    "GiMPy.C31_augment_cycle"
   ],
   "note": ""
  },
  {
   "property": "C32",
   "status": "proved",
   "theorems": [
    "GiMPy.C32_floyd_warshall_exact"
   ],
   "note": "diagonal entries included except for nodes with a self loop"
  },
  {
   "property": "C33",
   "status": "proved",
   "theorems": [
    "GiMPy.C33_floyd_warshall_valid"
   ],
   "note": ""
  },
  {
   "property": "C34",
   "status": "partial",
   "theorems": [
    "GiMPy.C34_get_path_partial",
    "GiMPy.C34_false"
   ],
   "note": "false of the code: each inner node is listed three times. Proved: the list is a cheapest path with each inner node written three times"
  },
  {
   "property": "C35",
   "status": "partial",
   "theorems": [
    "GiMPy.C35_negative_cycle_partial",
    "GiMPy.C35_false_cost",
    "GiMPy.C35_false_exception",
    "GiMPy.C35_false_self_loop"
   ],
   "note": "false of the code: with several negative cycles the cycle returned may have positive cost, or Exception is raised; a negative self loop gives KeyError. Proved: None iff no negative cycle, any list returned is a cycle, no other failures"
  },
  {
   "property": "C36",
   "status": "proved",
   "theorems": [
    "GiMPy.C36_cycle_canceling",
    "GiMPy.C36_may_not_terminate"
   ],
   "note": "about calls that return; the second theorem gives a network on which the method loops for ever"
  },
  {
   "property": "C37",
   "status": "proved",
   "theorems": [
    "GiMPy.C37_find_feasible_flow",
    "GiMPy.C37_supply_needed"
   ],
   "note": "total: the call returns; the second theorem shows that a supply node is needed"
  },
  {
   "property": "C38",
   "status": "proved",
   "theorems": [
    "GiMPy.C38_optimality_test",
    "GiMPy.C38_network_simplex"
   ],
   "note": "The test as stated, and the whole method: for every number of pivots network_simplex raises nothing and returns only a feasible flow of least cost, or False when there is none."
  },
  {
   "property": "C39",
   "status": "partial",
   "theorems": [
    "GiMPy.C39_fifo_partial",
    "GiMPy.C39_python3_partial",
    "GiMPy.C39_false"
   ],
   "note": "False under Python 3: 'inf' > int raises TypeError whenever the source has an arc to another node. Proved in full for the comparison of Python 2; under Python 3 every call raises TypeError or returns what it should."
  },
  {
   "property": "C40",
   "status": "proved",
   "theorems": [
    "GiMPy.C40_rooted_tree"
   ],
   "note": "The root is given no attribute called 'parent'."
  },
  {
   "property": "C41",
   "status": "partial",
   "theorems": [
    "GiMPy.C41_traverse_partial",
    "GiMPy.C41_root_omitted_raises"
   ],
   "note": "False when root is omitted: the Node object self.root is looked up among names and KeyError is raised (proved for all trees). For a given root everything is proved."
  },
  {
   "property": "C42",
   "status": "proved",
   "theorems": [
    "GiMPy.C42_print_nodes"
   ],
   "note": "Histories in which no insertion into a free slot reuses a name (see C43) and keyword arguments do not name children."
  },
  {
   "property": "C43",
   "status": "partial",
   "theorems": [
    "GiMPy.C43_raise_unchanged_partial",
    "GiMPy.C43_false"
   ],
   "note": "False: the slot of the parent is written before MultipleNodeException is raised (witness). Proved: exactly in that case the object changes."
  },
  {
   "property": "C44",
   "status": "partial",
   "theorems": [
    "GiMPy.C44_value_partial",
    "GiMPy.C44_false"
   ],
   "note": "False when a subexpression has the value 0 (witness 0+1). Proved exactly: the value is returned if no proper subexpression is 0, otherwise ValueError is raised. Rational numbers, all four operators."
  },
  {
   "property": "C45",
   "status": "partial",
   "theorems": [
    "GiMPy.C45_quote_partial",
    "GiMPy.C45_quote_exact",
    "GiMPy.C45_unquoted",
    "GiMPy.C45_needs_quotes",
    "GiMPy.C45_false"
   ],
   "note": "False for the empty string, keywords, commas, quotes inside words or around the string, line ends, and some backslashes. C45_quote_exact: exactly which strings are read back. C45_unquoted: which characters get into the text without quotes. C45_needs_quotes: exactly which strings stay without quotes, in terms of the regular expressions of the code."
  },
  {
   "property": "C46",
   "status": "partial",
   "theorems": [
    "GiMPy.C46_to_string_partial",
    "GiMPy.C46_cluster_attributes",
    "GiMPy.C46_false"
   ],
   "note": "False: KeyError for an undirected cluster with an inner edge, a node of two clusters is stated twice, TypeError for non-string cluster attributes (C46_cluster_attributes: exactly which values). Proved for the other clusterings."
  },
  {
   "property": "C47",
   "status": "partial",
   "theorems": [
    "GiMPy.C47_degrees_partial",
    "GiMPy.C47_false"
   ],
   "note": "False: get_degrees of a digraph returns None; all degree methods raise KeyError on a graph made without type. Proved for the remaining cases."
  },
  {
   "property": "C48",
   "status": "proved",
   "theorems": [
    "GiMPy.C48_diameter",
    "GiMPy.C48_not_undirected"
   ],
   "note": "For graphs made with an explicit type (the method reads attr['type']); without it the call raises KeyError (C48_not_undirected)."
  },
  {
   "property": "C49",
   "status": "proved",
   "theorems": [
    "GiMPy.C49_page_rank"
   ],
   "note": "Over rational numbers."
  },
  {
   "property": "C50",
   "status": "partial",
   "theorems": [
    "GiMPy.C50_create_cluster_partial",
    "GiMPy.C50_false"
   ],
   "note": "False: the mutable default argument, names c<k> chosen by the user and repeated names make a call replace an earlier cluster. Proved for histories with different names and own dictionaries."
  },
  {
   "property": "C51",
   "status": "proved",
   "theorems": [
    "GiMPy.C51_random"
   ],
   "note": "Both density branches; in the Euclidean one edges get a cost exactly when length_range is None."
  },
  {
   "property": "C52",
   "status": "partial",
   "theorems": [
    "GiMPy.C52_hamiltonian_partial",
    "GiMPy.C52_false",
    "GiMPy.C52_missing_source"
   ],
   "note": "False: whenever the source has another neighbour (so whenever a Hamiltonian path exists, for 2 nodes or more) the call raises AttributeError because self.tsp does not exist; exact condition proved. Otherwise it returns False, which is right for 2 nodes or more."
  },
  {
   "property": "C53",
   "status": "partial",
   "theorems": [
    "GiMPy.C53_display_restored_partial",
    "GiMPy.C53_false"
   ],
   "note": "False for all methods that call set_display_mode(display). Proved for max_flow, print_nodes, BinaryTree.traverse returning normally. The bodies of the methods are arbitrary computations on the mode."
  },
  {
   "property": "C54",
   "status": "proved",
   "theorems": [
    "GiMPy.C54_printexp",
    "GiMPy.C54_unbalanced"
   ],
   "note": "Also a witness that with a missing right child the parentheses do not match."
  },
  {
   "property": "C55",
   "status": "proved",
   "theorems": [
    "GiMPy.C55_refines_binary_tree"
   ],
   "note": ""
  },
  {
   "property": "C56",
   "status": "proved",
   "theorems": [
    "GiMPy.C56_traverse"
   ],
   "note": ""
  },
  {
   "property": "C57",
   "status": "proved",
   "theorems": [
    "GiMPy.C57_page_rank_converges"
   ],
   "note": "Over rational numbers."
  },
  {
   "property": "C58",
   "status": "partial",
   "theorems": [
    "GiMPy.C58_random_degree_partial",
    "GiMPy.C58_false"
   ],
   "note": "False without length_range (no edges) and without add_labels (MultipleEdgeException). Proved for the remaining arguments. Non-Euclidean branch."
  },
  {
   "property": "C59",
   "status": "proved",
   "theorems": [
    "GiMPy.C59_read_back"
   ],
   "note": "For graphs without clusters."
  },
  {
   "property": "C60",
   "status": "proved",
   "theorems": [
    "GiMPy.C60_find_tree",
    "GiMPy.C60_no_nodes"
   ],
   "note": "C60_no_nodes shows that the hypothesis on nodes is needed"
  },
  {
   "property": "C61",
   "status": "proved",
   "theorems": [
    "GiMPy.C61_pivot"
   ],
   "note": ""
  },
  {
   "property": "C62",
   "status": "partial",
   "theorems": [
    "GiMPy.C62_may_not_terminate",
    "GiMPy.C62_terminates_partial"
   ],
   "note": "False: on a network of three nodes with an arc of capacity 0 no number of pivots suffices (proved for every root and rule). Proved under nondegeneracy and positive capacities, with a bound on the pivots."
  },
  {
   "property": "C63",
   "status": "proved",
   "theorems": [
    "GiMPy.C63_min_cost_flow",
    "GiMPy.C63_scaled_raises"
   ],
   "note": "For a root that is a node and the two implemented pivot rules; the documented rule 'scaled' raises (C63_scaled_raises). For cycle_canceling only about calls that return."
  },
  {
   "property": "C64",
   "status": "proved",
   "theorems": [
    "GiMPy.C64_preflow_terminates"
   ],
   "note": "explicit bound on the number of iterations, in the numbers of nodes and arcs"
  },
  {
   "property": "C65",
   "status": "proved",
   "theorems": [
    "GiMPy.C65_dantzig"
   ],
   "note": "exact: which arc, when none, and when simplex_optimal says True"
  },
  {
   "property": "C66",
   "status": "partial",
   "theorems": [
    "GiMPy.C66_first_eligible_partial",
    "GiMPy.C66_false"
   ],
   "note": "false: the loop has no break, so the LAST eligible arc is taken; both proved"
  },
  {
   "property": "C67",
   "status": "partial",
   "theorems": [
    "GiMPy.C67_transpose_partial",
    "GiMPy.C67_visit_order",
    "GiMPy.C67_false_default",
    "GiMPy.C67_false_no_times"
   ],
   "note": "holds with a component number and finish times on all nodes; with the default component=None the call does not end when a cycle reaches the root, without finish times sorting raises TypeError"
  },
  {
   "property": "C68",
   "status": "proved",
   "theorems": [
    "GiMPy.C68_two_passes"
   ],
   "note": "the client program of two loops is part of the model; the number of components is returned"
  },
  {
   "property": "C69",
   "status": "proved",
   "theorems": [
    "GiMPy.C69_find_flattens"
   ],
   "note": ""
  },
  {
   "property": "C70",
   "status": "proved",
   "theorems": [
    "GiMPy.C70_bfs_pq"
   ],
   "note": ""
  },
  {
   "property": "C71",
   "status": "partial",
   "theorems": [
    "GiMPy.C71_dfs_pq_partial",
    "GiMPy.C71_dfs_pq_raises"
   ],
   "note": "false: TypeError as soon as a node is two edges away from the source (proved for every such graph); holds when the neighbours of the source lead only back to the source"
  },
  {
   "property": "C72",
   "status": "partial",
   "theorems": [
    "GiMPy.C72_reverse_partial",
    "GiMPy.C72_reverse_raises"
   ],
   "note": "false on digraphs: KeyError as soon as an arc enters the source without an opposite arc; on undirected graphs reverse changes nothing"
  },
  {
   "property": "C73",
   "status": "proved",
   "theorems": [
    "GiMPy.C73_redraw",
    "GiMPy.C73_redraw_no_attrs"
   ],
   "note": "attributes that are only drawn (labels, colours) are left out of the copy"
  },
  {
   "property": "C74",
   "status": "proved",
   "theorems": [
    "GiMPy.C74_display_frame",
    "GiMPy.C74_text_settings"
   ],
   "note": "the outside programs are parameters; files that can be opened are assumed"
  },
  {
   "property": "C75",
   "status": "partial",
   "theorems": [
    "GiMPy.C75_highlight_partial",
    "GiMPy.C75_highlight_lost",
    "GiMPy.C75_C79_witness"
   ],
   "note": "false: the colour becomes red (mode 'file', dot2tex) or black; exact result for every mode, and the negation for every other colour"
  },
  {
   "property": "C76",
   "status": "partial",
   "theorems": [
    "GiMPy.C76_create_partial",
    "GiMPy.C76_create_leak",
    "GiMPy.C76_display_partial",
    "GiMPy.C76_display_leak",
    "GiMPy.C76_click_leak"
   ],
   "note": "false if Graphviz is missing or fails, or after a click on the window; holds if Graphviz works and the call returns"
  },
  {
   "property": "C77",
   "status": "partial",
   "theorems": [
    "GiMPy.C77_dot2tex_partial",
    "GiMPy.C77_dot2tex_raises"
   ],
   "note": "false: UnboundLocalError without dot2tex; holds if dot2tex works"
  },
  {
   "property": "C78",
   "status": "proved",
   "theorems": [
    "GiMPy.C78_file",
    "GiMPy.C78_file_fails"
   ],
   "note": "Graphviz is a parameter"
  },
  {
   "property": "C79",
   "status": "partial",
   "theorems": [
    "GiMPy.C79_mode_partial",
    "GiMPy.C75_C79_witness"
   ],
   "note": "false: a missing library switches the display off, dot2tex forces mode 'file'; the exact mode and layout after the call are proved"
  },
  {
   "property": "C80",
   "status": "proved",
   "theorems": [
    "GiMPy.C80_repr"
   ],
   "note": "str of a name and repr of a list are parameters"
  },
  {
   "property": "C81",
   "status": "partial",
   "theorems": [
    "GiMPy.C81_print_flow_partial",
    "GiMPy.C81_positive",
    "GiMPy.C81_negative"
   ],
   "note": "false for negative flows, which are printed; holds for non-negative flows"
  },
  {
   "property": "C82",
   "status": "proved",
   "theorems": [
    "GiMPy.C82_show_flow"
   ],
   "note": "the call of display at the end is C74-C79"
  },
  {
   "property": "C83",
   "status": "partial",
   "theorems": [
    "GiMPy.C83_mark_partial",
    "GiMPy.C83_between_bounds",
    "GiMPy.C83_same_colour",
    "GiMPy.C83_mark_arc"
   ],
   "note": "false: only blue and black are used; exact result and the exception proved"
  },
  {
   "property": "C84",
   "status": "proved",
   "theorems": [
    "GiMPy.C84_mst_methods_agree"
   ],
   "note": "All three calls return and the costs are equal."
  },
  {
   "property": "C85",
   "status": "proved",
   "theorems": [
    "GiMPy.C85_shortest_path_methods_agree"
   ],
   "note": "fifo_label_correcting with the comparison of Python 2, as in C39; under Python 3 it raises (C39_false)."
  },
  {
   "property": "C86",
   "status": "proved",
   "theorems": [
    "GiMPy.C86_max_flow_min_cut"
   ],
   "note": "max_flow always returns; preflow-push is covered for the runs that return (C64 says when)."
  },
  {
   "property": "C87",
   "status": "proved",
   "theorems": [
    "GiMPy.C87_min_cost_methods_agree"
   ],
   "note": "For the runs that return; C36 and C62 say when the methods may run forever."
  },
  {
   "property": "C88",
   "status": "proved",
   "theorems": [
    "GiMPy.C88_search_dfs_tree",
    "GiMPy.C88_no_cross_edges"
   ],
   "note": "For every stack with the laws LawfulLIFO (proved of the model of blimpy.Stack, stack_lifo). Self loops are excluded as in C08."
  },
  {
   "property": "C89",
   "status": "proved",
   "theorems": [
    "GiMPy.C89_components_reverse_topological"
   ],
   "note": "Same hypotheses as C15."
  },
  {
   "property": "C90",
   "status": "proved",
   "theorems": [
    "GiMPy.C90_dfs_tree"
   ],
   "note": "Same hypotheses as C17; the recursion limit of Python is not modelled."
  },
  {
   "property": "C91",
   "status": "proved",
   "theorems": [
    "GiMPy.C91_dfs_finds_cycles"
   ],
   "note": "Same hypotheses as C17."
  },
  {
   "property": "C92",
   "status": "proved",
   "theorems": [
    "GiMPy.C92_closest",
    "GiMPy.C92_too_many"
   ],
   "note": "Rounded distances are a parameter, any integers. An entry 'cost' in edge_format is excluded: Python raises TypeError for the repeated keyword."
  },
  {
   "property": "C93",
   "status": "partial",
   "theorems": [
    "GiMPy.C93_random_selection_partial",
    "GiMPy.C93_false"
   ],
   "note": "False: the variable in the body of the loop is never assigned, so the call raises UnboundLocalError as soon as a degree is positive (C93_false, all inputs). Proved when all degrees are 0."
  },
  {
   "property": "C94",
   "status": "partial",
   "theorems": [
    "GiMPy.C94_tree_calls_independent",
    "GiMPy.C94_given_stack",
    "GiMPy.C94_binary_calls_independent_partial",
    "GiMPy.C94_false"
   ],
   "note": "Proved for Tree, all reachable trees. False for BinaryTree: add_right_child stores the name of the child before it raises, del_node then leaves a child that is no node, and a traverse that raises on it leaves nodes on the shared stack (C94_false). Proved for binary trees in the scope of C55."
  },
  {
   "property": "C95",
   "status": "proved",
   "theorems": [
    "GiMPy.C95_eval_output"
   ],
   "note": "Same hypotheses as C44; rational numbers for the floats of '/'."
  },
  {
   "property": "C96",
   "status": "partial",
   "theorems": [
    "GiMPy.C96_del_node_partial",
    "GiMPy.C96_false"
   ],
   "note": "False for every inner node (C96_false). What the call does to nodes, edges and the printed sequence is proved for all nodes other than the root."
  },
  {
   "property": "C97",
   "status": "proved",
   "theorems": [
    "GiMPy.BB.C97_optimal",
    "GiMPy.BB.C97_generated",
    "GiMPy.LP.exists_exactSolver"
   ],
   "note": "LP.exists_exactSolver shows that the assumption on the solver can be met for all variables."
  },
  {
   "property": "C98",
   "status": "proved",
   "theorems": [
    "GiMPy.BB.C98_search_tree"
   ],
   "note": ""
  },
  {
   "property": "C99",
   "status": "partial",
   "theorems": [
    "GiMPy.BB.C99_not_green",
    "GiMPy.BB.C99_stays_yellow_partial"
   ],
   "note": "False: BB.py 381 sets an attribute whose name is the value of color. What is true: a branched node stays yellow and has an attribute 'yellow' with the value 'green'."
  }
 ]
}