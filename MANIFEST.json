{"claims": [
{"property": "C01", "status": "proved", "theorems": ["Mtsp.C01_linear_expressions_homomorphic"], "note": "all operator nestings"},
{"property": "C02", "status": "proved", "theorems": ["Mtsp.C02_le_constraint_meaning", "Mtsp.C02_ge_constraint_meaning", "Mtsp.C02_eq_constraint_meaning", "Mtsp.C02_rows_mean_comparison"], "note": "range hypothesis: value within the double range, as the English property says"},
{"property": "C03", "status": "proved", "theorems": ["Mtsp.C03_bounds_never_cross"], "note": ""},
{"property": "C04", "status": "proved", "theorems": ["Mtsp.C04_bounds_closed_form", "Mtsp.C04_bounds_schedule_independent", "Mtsp.C04_valid_bounds_stay_valid", "Mtsp.C04_upper_antitone"], "note": ""},
{"property": "C05", "status": "proved", "theorems": ["Mtsp.C05_paths_belong_to_upper_bound", "Mtsp.C05_paths_replaced_only_when_better"], "note": ""},
{"property": "C06", "status": "proved", "theorems": ["Mtsp.C06_lower_bound_is_minimum"], "note": "for every heap implementation meeting the C++ contract; libstdc++'s is proved to meet it (Mtsp.libstdcxx)"},
{"property": "C07", "status": "proved", "theorems": ["Mtsp.C07_pop_hands_out_best"], "note": ""},
{"property": "C08", "status": "proved", "theorems": ["Mtsp.C08_lower_bound_monotone"], "note": ""},
{"property": "C09", "status": "proved", "theorems": ["Mtsp.C09_push_refused_iff_below_bound", "Mtsp.C09_cleared_queue_ignores_pushes", "Mtsp.C09_update_refused_iff", "Mtsp.C09_cleared_forever"], "note": ""},
{"property": "C10", "status": "proved", "theorems": ["Mtsp.C10_no_node_lost_or_duplicated"], "note": ""},
{"property": "C11", "status": "proved", "theorems": ["Mtsp.C11_branching_partitions"], "note": "for branching variables that are fractional at a point satisfying the rows, as the solver chooses them"},
{"property": "C12", "status": "proved", "theorems": ["Mtsp.C12_no_deadlock", "Mtsp.C12_bounded_steps", "Mtsp.C12_waiters_get_woken", "Mtsp.C12_push_notifies", "Mtsp.C12_notification_unblocks", "Mtsp.C12_notifications_balance", "Mtsp.C12_notifications_total"], "note": "transition system with waiters, pending notifications and spurious wake-ups"},
{"property": "C13", "status": "proved", "theorems": ["Mtsp.C13_every_thread_sees_every_cut_once", "Mtsp.C13_read_delivers_everything"], "note": ""},
{"property": "C14", "status": "proved", "theorems": ["Mtsp.C14_cycle_reported_iff", "Mtsp.C14_self_dependency_rejected"], "note": ""},
{"property": "C15", "status": "proved", "theorems": ["Mtsp.C15_closure", "Mtsp.C15_processed_transitive_acyclic"], "note": "boost::transitive_closure is modelled by a simpler algorithm with the same result"},
{"property": "C16", "status": "proved", "theorems": ["Mtsp.C16_queries_agree"], "note": ""},
{"property": "C17", "status": "proved", "theorems": ["Mtsp.C17_argument_error_iff", "Mtsp.C17_outcomes"], "note": ""},
{"property": "C18", "status": "proved", "theorems": ["Mtsp.C18_own_starts_and_ends", "Mtsp.C18_number_of_copies"], "note": ""},
{"property": "C19", "status": "proved", "theorems": ["Mtsp.C19_weights_mirror_input"], "note": ""},
{"property": "C20", "status": "partial", "theorems": ["Mtsp.C20_dependencies_survive_partial", "Mtsp.C20_single_agent", "Mtsp.C20_refuted"], "note": "false of the code for several agents: the dependency of agent a's end on agent a+1's start is silently dropped (C20_refuted); proved with exactly this exception, in full for one agent"},
{"property": "C21", "status": "proved", "theorems": ["Mtsp.C21_paths_mapped_back"], "note": ""},
{"property": "C22", "status": "proved", "theorems": ["Mtsp.C22_tensor_mapped_back", "Mtsp.C22_total_preserved"], "note": ""},
{"property": "C23", "status": "proved", "theorems": ["Mtsp.C23_sum_objective", "Mtsp.C23_max_objective"], "note": ""},
{"property": "C24", "status": "proved", "theorems": ["Mtsp.C24_construction_covers"], "note": "both modes, arbitrary weights; hypothesis: insertion costs below DBL_MAX"},
{"property": "C25", "status": "proved", "theorems": ["Mtsp.C25_incompatible_iff", "Mtsp.C25_linked_nodes_together"], "note": ""},
{"property": "C26", "status": "partial", "theorems": ["Mtsp.C26_order_partial", "Mtsp.C26_violations_partial", "Mtsp.C26_refuted"], "note": "false of the code: the last insert position of a component is not shifted when another component inserts earlier in the same path (C26_refuted); proved for dependencies at starts/ends and on paths whose inner nodes are all linked; C26_violations_partial: any other dependency is respected too unless an unlinked node was inserted between its two nodes and in front of the first one"},
{"property": "C27", "status": "proved", "theorems": ["Mtsp.C27_reported_objective", "Mtsp.C27_agrees_with_objective"], "note": ""},
{"property": "C28", "status": "proved", "theorems": ["Mtsp.C28_only_inner_nodes_exchanged", "Mtsp.C28_cover_preserved"], "note": ""},
{"property": "C29", "status": "proved", "theorems": ["Mtsp.C29_improvement_exact"], "note": ""},
{"property": "C30", "status": "partial", "theorems": ["Mtsp.C30_dependent_nodes_stay_together", "Mtsp.C30_start_end_order", "Mtsp.C30_short_paths_partial", "Mtsp.C30_refuted"], "note": "false of the code: the node read before the inner loop is not refreshed after an exchange, so a later exchange at the same position can break a dependency (C30_refuted, from a feasible path of an accepted instance); proved: dependent nodes stay on one path, order at starts and ends, and order for paths with at most three inner nodes"},
{"property": "C31", "status": "proved", "theorems": ["Mtsp.C31_terminates"], "note": ""},
{"property": "C32", "status": "partial", "theorems": ["Mtsp.C32_initial_bound_backed_partial", "Mtsp.C32_timeout", "Mtsp.C32_refuted"], "note": "false of the code when the deadline falls inside the construction heuristic (upper bound 0 without paths, C32_refuted); proved otherwise; the nodes of each dependency are on the same path"},
{"property": "C33", "status": "partial", "theorems": ["Mtsp.C33_lp_admits_feasible_partial", "Mtsp.C33_small_instances", "Mtsp.C33_refuted"], "note": "false of the code for one agent on two nodes: the rows are contradictory (C33_refuted); proved for all other accepted instances (at least three nodes)"},
{"property": "C34", "status": "proved", "theorems": ["Mtsp.C34_sum_objective", "Mtsp.C34_max_objective"], "note": "Max: range hypothesis for the double bound of the rows"},
{"property": "C35", "status": "proved", "theorems": ["Mtsp.C35_integral_uncut_is_feasible", "Mtsp.C35_noisy_uncut_is_feasible", "Mtsp.C35_feasible_is_uncut"], "note": "also if the values are integral up to 1e-10 only; for every minimum cut algorithm that meets its contract (Spec/Cuts.lean); also the converse"},
{"property": "C36", "status": "proved", "theorems": ["Mtsp.C36_read_paths_inverse"], "note": ""},
{"property": "C37", "status": "partial", "theorems": ["Mtsp.C37_implied_fixings_partial", "Mtsp.C37_refuted"], "note": "false of the code for arcs into start nodes (C37_refuted); proved for all other arcs; branching variables are never such arcs (C11)"},
{"property": "C38", "status": "proved", "theorems": ["Mtsp.C38_connectivity_cut_valid"], "note": "for every global min cut algorithm that returns a proper partition"},
{"property": "C39", "status": "proved", "theorems": ["Mtsp.C39_precedence_cuts_valid"], "note": "for every max flow algorithm whose cut separates source and target"},
{"property": "C40", "status": "proved", "theorems": ["Mtsp.C40_comb_cuts_valid", "Mtsp.C40_comb_cuts_valid_gomory_hu"], "note": "for every stream of partitions that meets the contract of Spec/Cuts.lean, in particular for the modelled Gomory-Hu construction (ghStream_correct); for at least three nodes (with fewer no LP has a solution, Solved.three)"},
{"property": "C41", "status": "partial", "theorems": ["Mtsp.C41_improving_solutions_survive_partial", "Mtsp.C41_refuted"], "note": "false of the code for several agents if the LP solver reports a negative reduced cost on the arc from an agent's end to the next start (C41_refuted); proved otherwise, over all reachable states"},
{"property": "C42", "status": "partial", "theorems": ["Mtsp.C42_lower_bound_partial", "Mtsp.C42_refuted", "Mtsp.C42_refuted_threads"], "note": "false of the code after the deadline: a node whose LP is cut off is dropped (C42_refuted), and with several threads nodes pushed after the queue was cleared are (C42_refuted_threads), and the bound is then computed from the rest; proved for all interleavings and all LP answers otherwise (deadlines with one thread), reduced costs as in C41"},
{"property": "C43", "status": "partial", "theorems": ["Mtsp.C43_solved_means_optimal_partial", "Mtsp.C43_refuted"], "note": "false of the code with dependencies: heuristics may return paths that violate one and the search stops at their (negative) cost (C43_refuted); proved: cover, cost = upper bound, no feasible solution cheaper, the nodes of each dependency on the same path, feasible if the dependencies only say which agent visits a node (each leads from a start to an inner node or from an inner node to an end); deadlines as in C42"},
{"property": "C44", "status": "proved", "theorems": ["Mtsp.C44_workers_never_fail"], "note": "any number of workers, any schedule, any LP answers (correct for the LP at hand), integral weights of at least -1; stronger than stated: raising the bound never fails"},
{"property": "C45", "status": "proved", "theorems": ["Mtsp.C45_own_fixings_only"], "note": ""},
{"property": "C46", "status": "proved", "theorems": ["Mtsp.C46_invalid_arguments", "Mtsp.C46_codes", "Mtsp.C46_dependency_codes", "Mtsp.C46_other_errors"], "note": "calls whose execution of the search is any interleaving with correct LP answers"},
{"property": "C47", "status": "proved", "theorems": ["Mtsp.C47_path_layout"], "note": ""},
{"property": "C48", "status": "partial", "theorems": ["Mtsp.C48_undefined", "Mtsp.C48_refuted", "Mtsp.C48_never_no_result", "Mtsp.C48_defined_partial"], "note": "false of the code: with the deadline inside the construction heuristic the behaviour is undefined (empty vector indexed), and the codes for 'no result' are never returned; proved: otherwise the behaviour is defined"},
{"property": "C49", "status": "partial", "theorems": ["Mtsp.C49_complete_iff", "Mtsp.C49_complete_partial", "Mtsp.C49_refuted"], "note": "false of the code if a node is a depot of two agents (the last path is truncated); proved: exactly then"},
{"property": "C50", "status": "proved", "theorems": ["Mtsp.C50_partitions", "Mtsp.C50_number_of_calls"], "note": "for every maximum flow algorithm whose cut separates source and target and every implementation of std::partition"},
{"property": "C51", "status": "proved", "theorems": ["Mtsp.C51_minimum_cuts", "Mtsp.ghStream_correct"], "note": "uncrossing of minimum cuts; maximum flow algorithm by contract"},
{"property": "C52", "status": "proved", "theorems": ["Mtsp.C52_dense_graph"], "note": ""},
{"property": "C53", "status": "proved", "theorems": ["Mtsp.C53_numbering_bijective", "Mtsp.C53_columns"], "note": ""},
{"property": "C54", "status": "proved", "theorems": ["Mtsp.C54_branching_variable"], "note": ""},
{"property": "C55", "status": "partial", "theorems": ["Mtsp.C55_size_check_partial", "Mtsp.C55_refuted"], "note": "false of the code from 2^63 agents on (wrap-around); proved below"},
{"property": "C56", "status": "proved", "theorems": ["Mtsp.C56_processing_order"], "note": ""},
{"property": "C57", "status": "proved", "theorems": ["Mtsp.C57_costs_refer_to_input"], "note": ""},
{"property": "C58", "status": "proved", "theorems": ["Mtsp.C58_search_heuristic_backed"], "note": ""},
{"property": "C59", "status": "proved", "theorems": ["Mtsp.C59_cuts_are_violated"], "note": ""},
{"property": "C60", "status": "partial", "theorems": ["Mtsp.C60_comb_cut_violated_partial", "Mtsp.C60_refuted", "Mtsp.C60_refuted_gomory_hu"], "note": "false of the code if an even number of heavy edges crosses the partition: the edge moved to the other side is the last one seen instead of the one with the extreme value (C60_refuted; C60_refuted_gomory_hu with cuts of the modelled Gomory-Hu construction); proved for an odd number"},
{"property": "C61", "status": "proved", "theorems": ["Mtsp.C61_table_accesses"], "note": ""},
{"property": "C62", "status": "partial", "theorems": ["Mtsp.C62_complete_search_partial", "Mtsp.C62_refuted"], "note": "false of the code with dependencies, as C43 (C62_refuted); proved: no deadline noticed; reduced costs as in C41; feasibility of the paths as in C43"},
{"property": "C63", "status": "partial", "theorems": ["Mtsp.C63_refuted", "Mtsp.C63_refuted_rounding", "Mtsp.C63_bounds_meet_partial", "Mtsp.C63_ends_solved_partial", "Mtsp.C63_accepted_ends_solved_partial", "Mtsp.C63_solved_or_error_partial", "Mtsp.C63_fair_runs_are_solved_partial"], "note": "false of the code on one agent and two nodes (C63_refuted), and on an ordinary six-node instance because the LP value is rounded up before the reduced costs are added to it (C63_refuted_rounding). Proved: if the dependencies only say which agent visits a node and rounding makes no difference to reduced cost fixing, every call that ends returns SOLVED; with the condition of C67 every fair execution does end, with an optimum and equal bounds"},
{"property": "C64", "status": "partial", "theorems": ["Mtsp.C64_arguments", "Mtsp.C64_lower_bound_partial", "Mtsp.C64_upper_bound_partial", "Mtsp.C64_solved_is_optimal_partial", "Mtsp.C64_checked_is_optimal_partial", "Mtsp.C64_refuted", "Mtsp.C64_refuted_threads"], "note": "false of the code: SOLVED can be returned with bounds 12 although a solution of cost 3 exists (C64_refuted, C64_refuted_threads); proved with deadlines and reduced costs as in C42/C43; dependencies of the reported paths as in C43 (proved optimal if they only say which agent visits a node); if the reported paths respect them, which the caller can check, they are optimal (C64_checked_is_optimal_partial)"},
{"property": "C65", "status": "partial", "theorems": ["Mtsp.C65_instance_assertions", "Mtsp.C65_bounds_assertion", "Mtsp.C65_timeout_assertion", "Mtsp.C65_two_opt_assertion_partial", "Mtsp.C65_refuted"], "note": "false of the code if the deadline falls inside the construction heuristic: the improvement heuristic is then called without paths (C65_refuted)"},
{"property": "C66", "status": "proved", "theorems": ["Mtsp.C66_length", "Mtsp.C66_lengths"], "note": ""},
{"property": "C67", "status": "partial", "theorems": ["Mtsp.C67_search_ends_partial", "Mtsp.C67_small_instances_partial", "Mtsp.C67_search_ends_sleeping_partial", "Mtsp.C67_small_instances_sleeping_partial", "Mtsp.C67_refuted"], "note": "false of the code: with six nodes the search can repeat the same node forever (C67_refuted), a consequence of C60; proved for at most five nodes (sizes of the Gomory-Hu cuts off by at most 1e-11), and for every instance in which the reported 2-matching cuts include a violated one, if the LP answers satisfy the cuts in the LP exactly (Inp.OnRows)"},
{"property": "C68", "status": "proved", "theorems": ["Mtsp.C68_deadline_is_honoured", "Mtsp.C68_deadline_with_sleeping"], "note": "without and with workers that sleep on the condition variable"},
{"property": "C69", "status": "proved", "theorems": ["Mtsp.C69_add_constraints", "Mtsp.C69_add_constraints_undefined", "Mtsp.C69_constructor", "Mtsp.C69_search_lp"], "note": "for sizes within int (formula in the statement: about 6 A N^2 + 2 D A N entries below 2^31; beyond that the row starts overflow, C69_add_constraints); CLP's functions by their documented effect on the stored problem"},
{"property": "C70", "status": "partial", "theorems": ["Mtsp.C70_first_objective_partial", "Mtsp.C70_objective", "Mtsp.C70_refuted"], "note": "false of the code for a second call: coefficients of variables not mentioned stay (C70_refuted); proved for the first call, and what any call does (C70_objective). The solver itself calls it once"},
{"property": "C71", "status": "proved", "theorems": ["Mtsp.C71_callback_values", "Mtsp.C71_integral"], "note": "up to the noise of the LP solver (at most 1e-10 for each pair of nodes standing for the input nodes)"},
{"property": "C72", "status": "partial", "theorems": ["Mtsp.C72_small_noise_partial", "Mtsp.C72_refuted", "Mtsp.C72_refuted_relative", "Mtsp.C72_tolerance_sound", "Mtsp.C72_one_ulp"], "note": "false of the code: noise of 2e-10 in one variable makes the search end SOLVED with a solution that is not optimal (C72_refuted), and if costs are above 2^20, so does noise of one unit in the last place of a double (C72_refuted_relative, C72_one_ulp); proved for noise of at most 2.5e-11, for LP optima whose values are fractions with denominator up to 1e9"},
{"property": "C73", "status": "proved", "theorems": ["Mtsp.C73_double_is_rounding", "Mtsp.C73_objective_exact", "Mtsp.C73_initial_exact", "Mtsp.C73_constructor_exact", "Mtsp.C73_search_heuristic_backed"], "note": "rounding by any function that keeps integers up to 2^53 and is monotone; rounding to nearest double is proved to be one; the search model itself runs its heuristic with such a rounding"},
{"property": "C74", "status": "proved", "theorems": ["Mtsp.C74_every_pair"], "note": "max flow and std::partition by their contracts"},
{"property": "C75", "status": "proved", "theorems": ["Mtsp.C75_two_matching_exact", "Mtsp.C75_nothing_reported"], "note": "max flow and std::partition by their contracts; exact arithmetic. That something is reported does not mean that the reported constraint itself is violated (C60)"},
{"property": "C76", "status": "proved", "theorems": ["Mtsp.C76_separation_exact"], "note": "minimum cut algorithms by their contracts; exact arithmetic"},
{"property": "C77", "status": "partial", "theorems": ["Mtsp.C77_bounds_compatible_partial", "Mtsp.C77_same_result_partial", "Mtsp.C77_depot_dependencies_partial", "Mtsp.C77_refuted"], "note": "false of the code after deadlines, as C64: two calls with the same arguments return SOLVED with 12 and with 3 (C77_refuted); proved with deadlines and reduced costs as in C42/C43 and for reported paths that respect the dependencies (a check the caller can make, not needed if the dependencies only say which agent visits a node)"},
{"property": "C78", "status": "partial", "theorems": ["Mtsp.C78_equivalent_instances_partial", "Mtsp.C78_equivalent_bounds_partial", "Mtsp.C78_cheaper_weights_partial", "Mtsp.C78_depot_dependencies_partial", "Mtsp.C78_refuted"], "note": "false of the code after deadlines, as C77 (C78_refuted); proved as C77"},
{"property": "C79", "status": "partial", "theorems": ["Mtsp.C79_arguments", "Mtsp.C79_call", "Mtsp.C79_checked_paths_partial", "Mtsp.C79_end_to_end_partial", "Mtsp.C79_messages", "Mtsp.C79_refuted_fractions", "Mtsp.C79_refuted_flag", "Mtsp.C79_refuted_mode", "Mtsp.C79_refuted_lengths", "Mtsp.C79_refuted_stride"], "note": "false of the code: fractions are cut off, -1.5 becomes a dependency, unknown objectives mean sum, shapes are not checked; proved for square integer matrices and as many ends as starts, optimality as in C64: for returned paths that respect the dependencies (which the caller can see; not needed if they only say which agent visits a node)"},
{"property": "C80", "status": "partial", "theorems": ["Mtsp.C80_lengths_match_bound_partial", "Mtsp.C80_depot_dependencies_partial", "Mtsp.C80_refuted"], "note": "false of the code: on a round trip whose last node depends on its depot the dependency flag is counted as a length (C80_refuted); proved if no dependency starts at the depot of a round trip, no depot is shared, and the paths respect the dependencies"},
{"property": "C81", "status": "partial", "theorems": ["Mtsp.C81_no_sleep_two_workers_partial", "Mtsp.C81_no_sleep_three_workers_partial", "Mtsp.C81_search_three_workers_partial", "Mtsp.C81_refuted", "Mtsp.C81_refuted_one_push"], "note": "false of the code with four workers: a push into a queue that is not empty notifies nobody (C81_refuted, C81_refuted_one_push; the search itself goes on, C86); proved for at most three workers"},
{"property": "C82", "status": "proved", "theorems": ["Mtsp.C82_local_optimum", "Mtsp.C82_initial_result"], "note": "exact arithmetic; a result that breaks a dependency (C30) is compared with the exchanges that repair it too"},
{"property": "C83", "status": "proved", "theorems": ["Mtsp.C83_construction", "Mtsp.C83_improvement", "Mtsp.C83_construction_then_improvement", "Mtsp.C83_refuted_huge_weights"], "note": "about a second model of the same code in which every access is checked; boost's numbering of components is not modelled (component ids below the number of components are assumed)"},
{"property": "C84", "status": "proved", "theorems": ["Mtsp.C84_initial_result_stable"], "note": "time is counted in deadline checks that still succeed"},
{"property": "C85", "status": "proved", "theorems": ["Mtsp.C85_connectivity_cut_valid", "Mtsp.C85_precedence_cuts_valid", "Mtsp.C85_comb_cuts_valid", "Mtsp.C85_partitions"], "note": "about a second model of the separation algorithms in which every operation on doubles is rounded; overflow, NaN and infinities are not modelled"},
{"property": "C86", "status": "proved", "theorems": ["Mtsp.C86_same_search", "Mtsp.C86_sleepers_own_nothing", "Mtsp.C86_not_all_asleep", "Mtsp.C86_end_is_announced", "Mtsp.C86_follows_protocol", "Mtsp.C86_every_sleeper_wakes"], "note": "the condition variable by its contract; an exception in a worker ends the program (std::terminate)"},
{"property": "C87", "status": "partial", "theorems": ["Mtsp.C87_no_race", "Mtsp.C87_atomic", "Mtsp.C87_same_states", "Mtsp.C87_every_search", "Mtsp.C87_observer", "Mtsp.C87_no_deadlock", "Mtsp.C87_holder_progress", "Mtsp.C87_refuted_get_paths"], "note": "proved for all member functions but GetPaths, which takes no lock and races with UpdateUpperBound if it is called during the search (C87_refuted_get_paths); the solver itself calls it only after all workers have been joined"},
{"property": "C88", "status": "partial", "theorems": ["Mtsp.C88_comes_back_partial", "Mtsp.C88_terminated_only_if", "Mtsp.C88_lp_failure", "Mtsp.C88_refuted"], "note": "false of the code with several workers: an LP failure ends the process (C88_refuted, C88_lp_failure); proved for one worker, and for any number if the LP solver does not fail; deadline inside the construction heuristic excluded (C48)"},
{"property": "C89", "status": "proved", "theorems": ["Mtsp.C89_separation_complete", "Mtsp.C89_cuts_are_violated", "Mtsp.C89_uncut_is_feasible", "Mtsp.C89_feasible_is_uncut"], "note": "about the rounded model of the separation algorithms; underflow, overflow and NaN are not modelled; comb cuts excluded (C60 is false of the code even in exact arithmetic)"},
{"property": "C90", "status": "partial", "theorems": ["Mtsp.C90_objective_value", "Mtsp.C90_double", "Mtsp.C90_lower_bound_partial", "Mtsp.C90_solved_means_optimal_partial", "Mtsp.C90_complete_search_partial", "Mtsp.C90_paths_cost_upper", "Mtsp.C90_no_crash", "Mtsp.C90_small_instances_partial", "Mtsp.C90_refuted"], "note": "false of the code: with total costs of 589824 the rounding errors of the objective value exceed the tolerance 1e-10, and the search calls a solution optimal that is not (C90_refuted); proved for objective values up to 2^15 with at most 640000 = (nonzero terms + 1) * value and an LP solver of noise 1e-11, with the exclusions of C42, C43 and C62; C90_small_instances_partial: the same from conditions on the input alone, for the sum of lengths"},
{"property": "C91", "status": "proved", "theorems": ["Mtsp.C91_cut_tree", "Mtsp.C91_two_matching"], "note": "about a second model of the same code on its arrays, every access checked; inside boykov_kolmogorov_max_flow nothing is modelled (its arrays have the sizes of the modelled ones)"},
{"property": "C92", "status": "partial", "theorems": ["Mtsp.C92_error_means_unsolvable_partial", "Mtsp.C92_no_error_means_solvable_partial", "Mtsp.C92_solvable_is_solved_partial", "Mtsp.C92_refuted_shared", "Mtsp.C92_refuted_round_trip", "Mtsp.C92_refuted_dropped", "Mtsp.C92_sop_is_solvable", "Mtsp.C92_refuted_sop"], "note": "false of the code: satisfiable dependencies on a depot that two agents share, or into the depot of a round trip, are reported as incompatible, and an unsatisfiable dependency of an agent's end on the next agent's start is not noticed; proved: errors are right if no depot is shared and no dependency leads into the depot of a round trip, and without an error there is a solution unless such a dependency is dropped; C92_solvable_is_solved_partial: if there is a solution and the dependencies only say which agent visits a node, every call that ends with nothing unusual returns SOLVED with an optimum; C92_refuted_sop: all sequential ordering instances with two or more agents, as the benchmark driver calls them, are solvable and are rejected"},
{"property": "C93", "status": "partial", "theorems": ["Mtsp.C93_never_aborts_partial", "Mtsp.C93_tsp_never_aborts_partial", "Mtsp.C93_entries", "Mtsp.C93_tour", "Mtsp.C93_order", "Mtsp.C93_refuted_open", "Mtsp.C93_case"], "note": "proved for calm executions (no deadline, C42) and, with dependencies, if the returned paths respect them (C26 is false of the code); the driver rejects correct results for instances for which only an interval is known (C93_refuted_open)"},
{"property": "C94", "status": "proved", "theorems": ["Mtsp.C94_values_cost_at_most", "Mtsp.C94_demo"], "note": "the values x' of the theorem are the exact optimum of the LP behind the values shown, which differ from it by the noise allowed to the LP solver (C71, C72)"},
{"property": "C95", "status": "proved", "theorems": ["Mtsp.C95_never_worse", "Mtsp.C95_solve_never_worse"], "note": "the member functions of the result are one step here; C87: their single statements, interleaved in any way, lead to the same states"}
]}
