#!/usr/bin/env python3
"""Generates MANIFEST.json. Theorem lists are explicit; properties without entry are omitted until proved."""
import json, os
C = {}
def claim(pid, status, theorems, note=""):
    C[pid] = dict(property=pid, status=status, theorems=["Mtsp." + t for t in theorems], note=note)

claim("C01", "proved", ["C01_linear_expressions_homomorphic"], "all operator nestings")
claim("C02", "proved", ["C02_le_constraint_meaning", "C02_ge_constraint_meaning", "C02_eq_constraint_meaning", "C02_rows_mean_comparison"],
      "range hypothesis: value within the double range, as the English property says")
claim("C03", "proved", ["C03_bounds_never_cross"], "")
claim("C04", "proved", ["C04_bounds_closed_form", "C04_bounds_schedule_independent", "C04_valid_bounds_stay_valid", "C04_upper_antitone"], "")
claim("C05", "proved", ["C05_paths_belong_to_upper_bound", "C05_paths_replaced_only_when_better"], "")
claim("C06", "proved", ["C06_lower_bound_is_minimum"], "for every heap implementation meeting the C++ contract; libstdc++'s is proved to meet it (Mtsp.libstdcxx)")
claim("C07", "proved", ["C07_pop_hands_out_best"], "")
claim("C08", "proved", ["C08_lower_bound_monotone"], "")
claim("C09", "proved", ["C09_push_refused_iff_below_bound", "C09_cleared_queue_ignores_pushes", "C09_update_refused_iff", "C09_cleared_forever"], "")
claim("C10", "proved", ["C10_no_node_lost_or_duplicated"], "")
claim("C13", "proved", ["C13_every_thread_sees_every_cut_once", "C13_read_delivers_everything"], "")
claim("C12", "proved", ["C12_no_deadlock", "C12_bounded_steps", "C12_waiters_get_woken", "C12_push_notifies", "C12_notification_unblocks", "C12_notifications_balance", "C12_notifications_total"], "transition system with waiters, pending notifications and spurious wake-ups")
claim("C14", "proved", ["C14_cycle_reported_iff", "C14_self_dependency_rejected"], "")
claim("C15", "proved", ["C15_closure", "C15_processed_transitive_acyclic"], "boost::transitive_closure is modelled by a simpler algorithm with the same result")
claim("C16", "proved", ["C16_queries_agree"], "")
claim("C17", "proved", ["C17_argument_error_iff", "C17_outcomes"], "")
claim("C18", "proved", ["C18_own_starts_and_ends", "C18_number_of_copies"], "")
claim("C19", "proved", ["C19_weights_mirror_input"], "")
claim("C20", "partial", ["C20_dependencies_survive_partial", "C20_single_agent", "C20_refuted"], "false of the code for several agents: the dependency of agent a's end on agent a+1's start is silently dropped (C20_refuted); proved with exactly this exception, in full for one agent")
claim("C21", "proved", ["C21_paths_mapped_back"], "")
claim("C22", "proved", ["C22_tensor_mapped_back", "C22_total_preserved"], "")
claim("C23", "proved", ["C23_sum_objective", "C23_max_objective"], "")
claim("C24", "proved", ["C24_construction_covers"], "both modes, arbitrary weights; hypothesis: insertion costs below DBL_MAX")
claim("C25", "proved", ["C25_incompatible_iff", "C25_linked_nodes_together"], "")
claim("C26", "partial", ["C26_order_partial", "C26_violations_partial", "C26_refuted"], "false of the code: the last insert position of a component is not shifted when another component inserts earlier in the same path (C26_refuted); proved for dependencies at starts/ends and on paths whose inner nodes are all linked; C26_violations_partial: any other dependency is respected too unless an unlinked node was inserted between its two nodes and in front of the first one")
claim("C27", "proved", ["C27_reported_objective", "C27_agrees_with_objective"], "")
claim("C56", "proved", ["C56_processing_order"], "")
claim("C28", "proved", ["C28_only_inner_nodes_exchanged", "C28_cover_preserved"], "")
claim("C29", "proved", ["C29_improvement_exact"], "")
claim("C30", "partial", ["C30_dependent_nodes_stay_together", "C30_start_end_order", "C30_short_paths_partial", "C30_refuted"], "false of the code: the node read before the inner loop is not refreshed after an exchange, so a later exchange at the same position can break a dependency (C30_refuted, from a feasible path of an accepted instance); proved: dependent nodes stay on one path, order at starts and ends, and order for paths with at most three inner nodes")
claim("C31", "proved", ["C31_terminates"], "")
claim("C32", "partial", ["C32_initial_bound_backed_partial", "C32_timeout", "C32_refuted"], "false of the code when the deadline falls inside the construction heuristic (upper bound 0 without paths, C32_refuted); proved otherwise; the nodes of each dependency are on the same path")
claim("C57", "proved", ["C57_costs_refer_to_input"], "")
claim("C58", "proved", ["C58_search_heuristic_backed"], "")
claim("C33", "partial", ["C33_lp_admits_feasible_partial", "C33_small_instances", "C33_refuted"], "false of the code for one agent on two nodes: the rows are contradictory (C33_refuted); proved for all other accepted instances (at least three nodes)")
claim("C34", "proved", ["C34_sum_objective", "C34_max_objective"], "Max: range hypothesis for the double bound of the rows")
claim("C36", "proved", ["C36_read_paths_inverse"], "")
claim("C53", "proved", ["C53_numbering_bijective", "C53_columns"], "")
claim("C54", "proved", ["C54_branching_variable"], "")
claim("C37", "partial", ["C37_implied_fixings_partial", "C37_refuted"], "false of the code for arcs into start nodes (C37_refuted); proved for all other arcs; branching variables are never such arcs (C11)")
claim("C11", "proved", ["C11_branching_partitions"], "for branching variables that are fractional at a point satisfying the rows, as the solver chooses them")
claim("C45", "proved", ["C45_own_fixings_only"], "")
claim("C35", "proved", ["C35_integral_uncut_is_feasible", "C35_noisy_uncut_is_feasible", "C35_feasible_is_uncut"], "also if the values are integral up to 1e-10 only; for every minimum cut algorithm that meets its contract (Spec/Cuts.lean); also the converse")
claim("C38", "proved", ["C38_connectivity_cut_valid"], "for every global min cut algorithm that returns a proper partition")
claim("C39", "proved", ["C39_precedence_cuts_valid"], "for every max flow algorithm whose cut separates source and target")
claim("C40", "proved", ["C40_comb_cuts_valid", "C40_comb_cuts_valid_gomory_hu"], "for every stream of partitions that meets the contract of Spec/Cuts.lean, in particular for the modelled Gomory-Hu construction (ghStream_correct); for at least three nodes (with fewer no LP has a solution, Solved.three)")
claim("C59", "proved", ["C59_cuts_are_violated"], "")
claim("C60", "partial", ["C60_comb_cut_violated_partial", "C60_refuted", "C60_refuted_gomory_hu"], "false of the code if an even number of heavy edges crosses the partition: the edge moved to the other side is the last one seen instead of the one with the extreme value (C60_refuted; C60_refuted_gomory_hu with cuts of the modelled Gomory-Hu construction); proved for an odd number")
claim("C50", "proved", ["C50_partitions", "C50_number_of_calls"], "for every maximum flow algorithm whose cut separates source and target and every implementation of std::partition")
claim("C51", "proved", ["C51_minimum_cuts", "ghStream_correct"], "uncrossing of minimum cuts; maximum flow algorithm by contract")
claim("C52", "proved", ["C52_dense_graph"], "")
claim("C61", "proved", ["C61_table_accesses"], "")
claim("C44", "proved", ["C44_workers_never_fail"], "any number of workers, any schedule, any LP answers (correct for the LP at hand), integral weights of at least -1; stronger than stated: raising the bound never fails")
claim("C41", "partial", ["C41_improving_solutions_survive_partial", "C41_refuted"], "false of the code for several agents if the LP solver reports a negative reduced cost on the arc from an agent's end to the next start (C41_refuted); proved otherwise, over all reachable states")
claim("C42", "partial", ["C42_lower_bound_partial", "C42_refuted", "C42_refuted_threads"], "false of the code after the deadline: a node whose LP is cut off is dropped (C42_refuted), and with several threads nodes pushed after the queue was cleared are (C42_refuted_threads), and the bound is then computed from the rest; proved for all interleavings and all LP answers otherwise (deadlines with one thread), reduced costs as in C41")
claim("C43", "partial", ["C43_solved_means_optimal_partial", "C43_refuted"], "false of the code with dependencies: heuristics may return paths that violate one and the search stops at their (negative) cost (C43_refuted); proved: cover, cost = upper bound, no feasible solution cheaper, the nodes of each dependency on the same path, feasible if the dependencies only say which agent visits a node (each leads from a start to an inner node or from an inner node to an end); deadlines as in C42")
claim("C62", "partial", ["C62_complete_search_partial", "C62_refuted"], "false of the code with dependencies, as C43 (C62_refuted); proved: no deadline noticed; reduced costs as in C41; feasibility of the paths as in C43")
claim("C46", "proved", ["C46_invalid_arguments", "C46_codes", "C46_dependency_codes", "C46_other_errors"], "calls whose execution of the search is any interleaving with correct LP answers")
claim("C47", "proved", ["C47_path_layout"], "")
claim("C48", "partial", ["C48_undefined", "C48_refuted", "C48_never_no_result", "C48_defined_partial"], "false of the code: with the deadline inside the construction heuristic the behaviour is undefined (empty vector indexed), and the codes for 'no result' are never returned; proved: otherwise the behaviour is defined")
claim("C49", "partial", ["C49_complete_iff", "C49_complete_partial", "C49_refuted"], "false of the code if a node is a depot of two agents (the last path is truncated); proved: exactly then")
claim("C55", "partial", ["C55_size_check_partial", "C55_refuted"], "false of the code from 2^63 agents on (wrap-around); proved below")
claim("C63", "partial", ["C63_refuted", "C63_refuted_rounding", "C63_bounds_meet_partial", "C63_ends_solved_partial", "C63_accepted_ends_solved_partial", "C63_solved_or_error_partial", "C63_fair_runs_are_solved_partial"], "false of the code on one agent and two nodes (C63_refuted), and on an ordinary six-node instance because the LP value is rounded up before the reduced costs are added to it (C63_refuted_rounding). Proved: if the dependencies only say which agent visits a node and rounding makes no difference to reduced cost fixing, every call that ends returns SOLVED; with the condition of C67 every fair execution does end, with an optimum and equal bounds")
claim("C64", "partial", ["C64_arguments", "C64_lower_bound_partial", "C64_upper_bound_partial", "C64_solved_is_optimal_partial", "C64_checked_is_optimal_partial", "C64_refuted", "C64_refuted_threads"], "false of the code: SOLVED can be returned with bounds 12 although a solution of cost 3 exists (C64_refuted, C64_refuted_threads); proved with deadlines and reduced costs as in C42/C43; dependencies of the reported paths as in C43 (proved optimal if they only say which agent visits a node); if the reported paths respect them, which the caller can check, they are optimal (C64_checked_is_optimal_partial)")
claim("C65", "partial", ["C65_instance_assertions", "C65_bounds_assertion", "C65_timeout_assertion", "C65_two_opt_assertion_partial", "C65_refuted"], "false of the code if the deadline falls inside the construction heuristic: the improvement heuristic is then called without paths (C65_refuted)")
claim("C66", "proved", ["C66_length", "C66_lengths"], "")
claim("C67", "partial", ["C67_search_ends_partial", "C67_small_instances_partial", "C67_search_ends_sleeping_partial", "C67_small_instances_sleeping_partial", "C67_refuted"], "false of the code: with six nodes the search can repeat the same node forever (C67_refuted), a consequence of C60; proved for at most five nodes (sizes of the Gomory-Hu cuts off by at most 1e-11), and for every instance in which the reported 2-matching cuts include a violated one, if the LP answers satisfy the cuts in the LP exactly (Inp.OnRows)")
claim("C68", "proved", ["C68_deadline_is_honoured", "C68_deadline_with_sleeping"], "without and with workers that sleep on the condition variable")
claim("C69", "proved", ["C69_add_constraints", "C69_add_constraints_undefined", "C69_constructor", "C69_search_lp"], "for sizes within int (formula in the statement: about 6 A N^2 + 2 D A N entries below 2^31; beyond that the row starts overflow, C69_add_constraints); CLP's functions by their documented effect on the stored problem")
claim("C70", "partial", ["C70_first_objective_partial", "C70_objective", "C70_refuted"], "false of the code for a second call: coefficients of variables not mentioned stay (C70_refuted); proved for the first call, and what any call does (C70_objective). The solver itself calls it once")
claim("C71", "proved", ["C71_callback_values", "C71_integral"], "up to the noise of the LP solver (at most 1e-10 for each pair of nodes standing for the input nodes)")
claim("C72", "partial", ["C72_small_noise_partial", "C72_refuted", "C72_refuted_relative", "C72_tolerance_sound", "C72_one_ulp"], "false of the code: noise of 2e-10 in one variable makes the search end SOLVED with a solution that is not optimal (C72_refuted), and if costs are above 2^20, so does noise of one unit in the last place of a double (C72_refuted_relative, C72_one_ulp); proved for noise of at most 2.5e-11, for LP optima whose values are fractions with denominator up to 1e9")
claim("C73", "proved", ["C73_double_is_rounding", "C73_objective_exact", "C73_initial_exact", "C73_constructor_exact", "C73_search_heuristic_backed"], "rounding by any function that keeps integers up to 2^53 and is monotone; rounding to nearest double is proved to be one; the search model itself runs its heuristic with such a rounding")
claim("C74", "proved", ["C74_every_pair"], "max flow and std::partition by their contracts")
claim("C75", "proved", ["C75_two_matching_exact", "C75_nothing_reported"], "max flow and std::partition by their contracts; exact arithmetic. That something is reported does not mean that the reported constraint itself is violated (C60)")
claim("C76", "proved", ["C76_separation_exact"], "minimum cut algorithms by their contracts; exact arithmetic")
claim("C77", "partial", ["C77_bounds_compatible_partial", "C77_same_result_partial", "C77_depot_dependencies_partial", "C77_refuted"], "false of the code after deadlines, as C64: two calls with the same arguments return SOLVED with 12 and with 3 (C77_refuted); proved with deadlines and reduced costs as in C42/C43 and for reported paths that respect the dependencies (a check the caller can make, not needed if the dependencies only say which agent visits a node)")
claim("C78", "partial", ["C78_equivalent_instances_partial", "C78_equivalent_bounds_partial", "C78_cheaper_weights_partial", "C78_depot_dependencies_partial", "C78_refuted"], "false of the code after deadlines, as C77 (C78_refuted); proved as C77")
claim("C79", "partial", ["C79_arguments", "C79_call", "C79_checked_paths_partial", "C79_end_to_end_partial", "C79_messages", "C79_refuted_fractions", "C79_refuted_flag", "C79_refuted_mode", "C79_refuted_lengths", "C79_refuted_stride"], "false of the code: fractions are cut off, -1.5 becomes a dependency, unknown objectives mean sum, shapes are not checked; proved for square integer matrices and as many ends as starts, optimality as in C64: for returned paths that respect the dependencies (which the caller can see; not needed if they only say which agent visits a node)")
claim("C80", "partial", ["C80_lengths_match_bound_partial", "C80_depot_dependencies_partial", "C80_refuted"], "false of the code: on a round trip whose last node depends on its depot the dependency flag is counted as a length (C80_refuted); proved if no dependency starts at the depot of a round trip, no depot is shared, and the paths respect the dependencies")
claim("C81", "partial", ["C81_no_sleep_two_workers_partial", "C81_no_sleep_three_workers_partial", "C81_search_three_workers_partial", "C81_refuted", "C81_refuted_one_push"], "false of the code with four workers: a push into a queue that is not empty notifies nobody (C81_refuted, C81_refuted_one_push; the search itself goes on, C86); proved for at most three workers")
claim("C82", "proved", ["C82_local_optimum", "C82_initial_result"], "exact arithmetic; a result that breaks a dependency (C30) is compared with the exchanges that repair it too")
claim("C83", "proved", ["C83_construction", "C83_improvement", "C83_construction_then_improvement", "C83_refuted_huge_weights"], "about a second model of the same code in which every access is checked; boost's numbering of components is not modelled (component ids below the number of components are assumed)")
claim("C84", "proved", ["C84_initial_result_stable"], "time is counted in deadline checks that still succeed")
claim("C85", "proved", ["C85_connectivity_cut_valid", "C85_precedence_cuts_valid", "C85_comb_cuts_valid", "C85_partitions"], "about a second model of the separation algorithms in which every operation on doubles is rounded; overflow, NaN and infinities are not modelled")
claim("C86", "proved", ["C86_same_search", "C86_sleepers_own_nothing", "C86_not_all_asleep", "C86_end_is_announced", "C86_follows_protocol", "C86_every_sleeper_wakes"], "the condition variable by its contract; an exception in a worker ends the program (std::terminate)")
claim("C87", "partial", ["C87_no_race", "C87_atomic", "C87_same_states", "C87_every_search", "C87_observer", "C87_no_deadlock", "C87_holder_progress", "C87_refuted_get_paths"], "proved for all member functions but GetPaths, which takes no lock and races with UpdateUpperBound if it is called during the search (C87_refuted_get_paths); the solver itself calls it only after all workers have been joined")
claim("C88", "partial", ["C88_comes_back_partial", "C88_terminated_only_if", "C88_lp_failure", "C88_refuted"], "false of the code with several workers: an LP failure ends the process (C88_refuted, C88_lp_failure); proved for one worker, and for any number if the LP solver does not fail; deadline inside the construction heuristic excluded (C48)")
claim("C89", "proved", ["C89_separation_complete", "C89_cuts_are_violated", "C89_uncut_is_feasible", "C89_feasible_is_uncut"], "about the rounded model of the separation algorithms; underflow, overflow and NaN are not modelled; comb cuts excluded (C60 is false of the code even in exact arithmetic)")
claim("C90", "partial", ["C90_objective_value", "C90_double", "C90_lower_bound_partial", "C90_solved_means_optimal_partial", "C90_complete_search_partial", "C90_paths_cost_upper", "C90_no_crash", "C90_small_instances_partial", "C90_refuted"], "false of the code: with total costs of 589824 the rounding errors of the objective value exceed the tolerance 1e-10, and the search calls a solution optimal that is not (C90_refuted); proved for objective values up to 2^15 with at most 640000 = (nonzero terms + 1) * value and an LP solver of noise 1e-11, with the exclusions of C42, C43 and C62; C90_small_instances_partial: the same from conditions on the input alone, for the sum of lengths")
claim("C91", "proved", ["C91_cut_tree", "C91_two_matching"], "about a second model of the same code on its arrays, every access checked; inside boykov_kolmogorov_max_flow nothing is modelled (its arrays have the sizes of the modelled ones)")
claim("C92", "partial", ["C92_error_means_unsolvable_partial", "C92_no_error_means_solvable_partial", "C92_solvable_is_solved_partial", "C92_refuted_shared", "C92_refuted_round_trip", "C92_refuted_dropped", "C92_sop_is_solvable", "C92_refuted_sop"], "false of the code: satisfiable dependencies on a depot that two agents share, or into the depot of a round trip, are reported as incompatible, and an unsatisfiable dependency of an agent's end on the next agent's start is not noticed; proved: errors are right if no depot is shared and no dependency leads into the depot of a round trip, and without an error there is a solution unless such a dependency is dropped; C92_solvable_is_solved_partial: if there is a solution and the dependencies only say which agent visits a node, every call that ends with nothing unusual returns SOLVED with an optimum; C92_refuted_sop: all sequential ordering instances with two or more agents, as the benchmark driver calls them, are solvable and are rejected")
claim("C93", "partial", ["C93_never_aborts_partial", "C93_tsp_never_aborts_partial", "C93_entries", "C93_tour", "C93_order", "C93_refuted_open", "C93_case"], "proved for calm executions (no deadline, C42) and, with dependencies, if the returned paths respect them (C26 is false of the code); the driver rejects correct results for instances for which only an interval is known (C93_refuted_open)")
claim("C94", "proved", ["C94_values_cost_at_most", "C94_demo"], "the values x' of the theorem are the exact optimum of the LP behind the values shown, which differ from it by the noise allowed to the LP solver (C71, C72)")
claim("C95", "proved", ["C95_never_worse", "C95_solve_never_worse"], "the member functions of the result are one step here; C87: their single statements, interleaved in any way, lead to the same states")
#NEXT

out = os.path.join(os.path.dirname(__file__), "..", "MANIFEST.json")
with open(out, "w") as f:
    f.write('{"claims": [\n' + ",\n".join(json.dumps(C[k]) for k in sorted(C)) + '\n]}\n')
