#!/usr/bin/env python3
"""Source of properties.jsonl (one place to edit)."""
import json,os
P=[]
def p(title, statement, quantifier, why, *anchors):
    P.append(dict(id="C%02d"%(len(P)+1), title=title, statement=statement, quantifier=quantifier, why_tests_cant=why, anchors=list(anchors)))
LVC="tsplp/src/LinearVariableComposition.cpp"; LC="tsplp/src/LinearConstraint.cpp"; MR="tsplp/src/MtspResult.cpp"
Q="tsplp/src/BranchAndCutQueue.cpp"; CD="tsplp/src/ConstraintDeque.cpp"; DH="tsplp/src/DependencyHelpers.cpp"
WM="tsplp/src/WeightManager.cpp"; HE="tsplp/src/Heuristics.cpp"; MM="tsplp/src/MtspModel.cpp"; SE="tsplp/src/SeparationAlgorithms.cpp"
SG="tsplp/src/SupportGraphs.cpp"; MO="tsplp/src/Model.cpp"; VA="tsplp/src/Variable.cpp"; CA="mtsp-vrp-c/src/mtsp-vrp-c.cpp"; PY="python/mtsp_vrp.py"
GH="graph-algos/src/GomoryHuTree.cpp"; PG="graph-algos/src/PartiallyContractedGraph.hpp"; HC="graph-algos/include/HasCycle.hpp"
p("Linear expressions evaluate homomorphically","For any two linear expressions and any assignment of values to the LP variables, evaluating their sum, difference, negation, scalar multiple or in-place sum gives the sum, difference, negation, multiple of their values; and no expression built with these operators mentions a variable twice.","all expressions built by any nesting of the operators, all variable values","tests evaluate a handful of expressions; the operators swap operands by size and merge hash maps, so every overlap pattern of variables matters",LVC+": operator+, operator+=, operator-, operator*, Evaluate")
p("A constraint means its comparison","The constraint object made by lhs <= rhs, lhs >= rhs or lhs == rhs is reported satisfied at a point (with tolerance t) exactly when the values of the two sides satisfy the comparison up to t.","all pairs of expressions, all points, all tolerances, within the double range","constants and coefficients may be on both sides and cancel; a sign slip shows only for some combinations",LC+": operator<=, operator>=, operator==, Evaluate")
p("Result bounds never cross","At every moment of every concurrent run, the result object's lower bound is at most its upper bound.","all finite sequences (hence all lock-serialised interleavings) of bound updates and reads by any number of threads","only some schedules race a lower-bound update with an upper-bound update",MR+": UpdateLowerBound, UpdateUpperBound, GetBounds")
p("Result bounds do not depend on the schedule","After any set of updates the reported upper bound is the smallest submitted upper bound and the reported lower bound is the largest submitted lower bound capped by the upper bound, whatever the order in which the updates were applied; in particular the upper bound never grows and a valid pair of bounds stays valid.","all update histories and all their permutations","needs every interleaving of every multiset of updates",MR+": UpdateLowerBound, UpdateUpperBound")
p("Reported paths belong to the reported upper bound","The paths kept in the result are always the ones that were submitted together with the value that is now the upper bound (none before the first improvement), and they are replaced only by strictly better ones.","all update histories","a torn or mismatched update shows only under particular interleavings",MR+": UpdateUpperBound","tsplp/include/MtspResult.hpp: GetPaths")
p("Queue lower bound is the true minimum","GetLowerBound returns the minimum of the lower bounds of all queued nodes and all nodes that threads are working on, and -DBL_MAX when there are none.","all histories of pushes, pops, bound updates, completions and clears from a fresh queue, any number of threads","depends on the heap being well formed after arbitrary histories",Q+": GetLowerBound, CalculateLowerBound")
p("Pop hands out a best node","A node handed out by Pop has a lower bound no larger than that of any node still queued.","all reachable queue states","heap order bugs need particular insertion orders",Q+": Pop, Push, PushBranch, PushResult")
p("Queue lower bound is monotone","No operation on the queue lowers GetLowerBound, except the completion that leaves the queue empty with nobody working, after which it is -DBL_MAX.","all histories, all operations","a decrease would need a particular interleaving of push, completion and pop",Q+": Push, PushBranch, PushResult, Pop, UpdateCurrentLowerBound, NotifyNodeDone")
p("Push guards","A push is refused with an error exactly when its lower bound is smaller than GetLowerBound, and then changes nothing; after ClearAll every push is silently ignored and every Pop returns nothing; UpdateCurrentLowerBound is refused exactly when the thread holds no node or the bound would decrease.","all reachable states and all arguments","error branches interact with the clear flag and the concurrent state",Q+": Push, PushBranch, PushResult, Pop, ClearAll, UpdateCurrentLowerBound")
p("No node is lost or duplicated","As long as the queue is not cleared, the nodes handed out so far together with the nodes still queued are exactly the nodes pushed so far, each exactly once and with unchanged data.","all histories, any number of threads","a lost node is a silently lost part of the search space; it needs the right heap shape",Q+": Push, PushBranch, PushResult, Pop")
p("Branching partitions the search space","Branching on a variable creates two nodes with the parent's lower bound such that every feasible solution of the parent satisfies the fixings of exactly one of them and no other solution is added.","all parents, all branching variables, all feasible solutions","quantifies over all solutions of all instances",Q+": PushBranch",MM+": CalculateRecursivelyFixableVariables, BranchAndCutSolve")
p("No worker waits forever","In every schedule, as long as some worker has not left its loop, some worker can make a step: a worker blocked in Pop is always woken when work appears in an empty queue, when all work is done or when the queue is cleared.","all interleavings of any number of workers, including spurious wake-ups","lost wake-ups occur only in rare interleavings",Q+": Pop, Push, NotifyNodeDone, ClearAll",MM+": BranchAndCutSolve")
p("Every thread sees every cut exactly once","Each worker's LP receives every globally pushed constraint exactly once and in push order; discarding already-read constraints never discards one that some worker has not read and never moves a read position out of range.","all interleavings of pushes and pops by any number of threads","the read positions are shifted concurrently by one thread",CD+": Push, PopToModel")
p("Cyclic dependencies are rejected, acyclic ones never","The dependency preprocessing reports a cycle exactly when the input dependency relation has a cycle (self dependency included).","all weight matrices","cycle shapes are unbounded",DH+": CreateTransitiveDependencies",HC+": HasCycle, CycleDetector")
p("Dependencies are closed transitively, nothing else changes","For acyclic input the processed matrix has the dependency flag at (v,u) exactly when v is reachable from u through one or more input dependencies, and every other entry is unchanged.","all matrices","all graph shapes",DH+": CreateTransitiveDependencies")
p("Dependency queries agree","The list of arcs, the predecessor list, the successor list and the arc test of the dependency graph all describe the same relation: u before v iff weights(v,u) = -1; no entry is repeated and every listed node is in range.","all matrices and nodes","flattened span indices must be right for every row",DH+": DependencyGraph, GetIncomingSpan, GetOutgoingSpan","tsplp/include/DependencyHelpers.hpp: HasArc, GetArcs")
p("Instance validation","Construction fails with an argument error exactly when the start and end lists differ in length, there is no agent, the matrix is not square, there are fewer than two nodes, or a start or end position is out of range.","all inputs","the checks are interleaved with the node duplication",WM+": WeightManager::WeightManager")
p("Every agent gets its own start and end","After preprocessing the start and end nodes of all agents are pairwise distinct and in range, and map back to the nodes the caller asked for.","all valid inputs, any number of agents sharing depots in any pattern","all sharing patterns of starts and ends",WM+": WeightManager::WeightManager, ToOriginal")
p("Preprocessed weights mirror the input","Between any two preprocessed nodes the weight equals the input weight of the nodes they stand for, except on the diagonal (0), on the artificial end-to-next-start arcs (0), for dependency flags (which appear for transitive consequences and disappear on duplicated depots, where they become 0).","all valid inputs and node pairs","sharing patterns and closure interact",WM+": WeightManager::WeightManager")
p("Input dependencies survive preprocessing","An accepted instance has no dependency into a start or out of an end, and every input dependency is either still present or (single agent, start before end) already implied by the agent's path.","all accepted inputs","the artificial arcs overwrite matrix entries that may hold dependency flags",WM+": WeightManager::WeightManager")
p("Paths are mapped back correctly","Mapping preprocessed paths back replaces each node by the input node it stands for, keeps all lengths, and makes agent a's path run from its requested start to its requested end.","all paths","all sharing patterns",WM+": TransformPathsBack, ToOriginal")
p("Fractional values are mapped back correctly","The tensor reported to the callback has, for every agent and every pair of input nodes, the sum of the LP values of all preprocessed arcs that stand for this pair; the total over all pairs is preserved.","all tensors and sharing patterns","double counting occurs only when both endpoints are duplicates",WM+": TransformTensorBack")
p("Objective of a set of paths","The computed objective is the sum of all path lengths in Sum mode and the largest path length (at least 0) in Max mode, where a path's length is the sum of the weights of its consecutive arcs.","all paths, weights and modes","all sizes",HE+": CalculatePathLength, CalculateObjective")
p("Construction heuristic visits everything exactly once","If the construction heuristic finishes in time, it returns one path per agent, running from the agent's start to its end, and every node is on exactly one path exactly once.","all accepted instances, all weights (also the fractional ones used during search), both modes","all instances",HE+": NearestInsertionSum, NearestInsertionMax, NearestInsertion")
p("Construction heuristic keeps dependent nodes together","In the construction heuristic's result two nodes linked by a dependency are always on the same agent's path; if the dependencies tie two agents together the instance is rejected as incompatible.","all accepted instances, both modes","all dependency graphs",HE+": NearestInsertionSum, NearestInsertionMax")
p("Construction heuristic respects the order of dependencies","In the construction heuristic's result every dependency u before v is respected on its path.","all accepted instances, both modes","insertion positions shift when other nodes are inserted in front of them",HE+": NearestInsertionSum, NearestInsertionMax")
p("Construction heuristic reports the true objective","The objective value returned with the constructed paths is the objective of these paths.","all instances and weights, both modes","the Max bookkeeping has a special case for insertions that shorten a path",HE+": NearestInsertionSum, NearestInsertionMax")
p("Improvement heuristic only exchanges inner nodes","The improvement heuristic keeps the number of paths, each path's length, first and last node, and the multiset of all nodes.","all paths with at least two nodes each, all weights, any time limit, both modes","all exchange sequences",HE+": TwoOptPaths")
p("Improvement heuristic reports its improvement exactly and never worsens","The reported improvement is the old objective minus the new objective and is never negative.","all inputs, any time limit, both modes (Max: path lengths non-negative)","adjacent and inter-path exchanges use different formulas",HE+": TwoOptPaths, PathsInfo")
p("Improvement heuristic preserves dependencies","If the given paths respect all dependencies, so do the improved paths.","all inputs","needs a particular sequence of exchanges at one position",HE+": TwoOptPaths")
p("Improvement heuristic terminates","The improvement loop stops by itself after finitely many rounds.","all inputs, both modes","termination is not testable",HE+": TwoOptPaths")
p("Initial upper bound is backed by paths","After constructing a solver the upper bound equals the objective of the stored initial paths, whenever the deadline is hit.","all accepted instances, every point at which the deadline may fall","the deadline may fall inside the construction heuristic",MM+": CreateInitialResult, MtspModel::MtspModel",MR+": UpdateUpperBound")
p("The LP admits every feasible solution","The 0/1 point of every feasible set of paths satisfies every constraint of the initial LP.","all accepted instances, all feasible solutions","all instances and solutions; special cases for one agent and for start/end dependencies",MM+": MtspModel::MtspModel")
p("The LP objective is the true cost","At the 0/1 point of a feasible set of paths the LP objective equals the total path length (Sum), respectively can be as low as and never below the longest path (Max).","all accepted instances and feasible solutions","the artificial arcs must cost nothing",MM+": CreateObjective, CreateSumObjective, CreateMaxObjective")
p("Integral LP solutions without violated cuts are feasible solutions","If an LP point is integral up to the tolerance 1e-10, belongs to a point that satisfies the initial constraints and no cut is violated, the paths read off it form a feasible solution.","all accepted instances and points","all instances and points",MM+": CreatePathsFromVariables, BranchAndCutSolve",SE+": Ucut, Pi, Sigma, PiSigma")
p("Reading paths off a solution point is inverse to encoding them","Reading the paths off the 0/1 point of a feasible solution returns exactly this solution (mapped back to input nodes).","all feasible solutions","all solutions",MM+": CreatePathsFromVariables")
p("Implied fixings are sound","If a feasible solution uses arc (u,v) with agent a, then none of the variables that the solver fixes to zero as a consequence is used by it.","all instances, all arcs, all feasible solutions","depends on start/end positions and dependencies",MM+": CalculateRecursivelyFixableVariables")
p("Connectivity cuts are valid","No feasible solution violates a connectivity cut added during the search, whatever LP point it was derived from.","all instances, all LP points, all feasible solutions","a wrong cut silently removes optimal solutions",SE+": Ucut")
p("Precedence cuts are valid","No feasible solution violates a precedence cut (pi, sigma, pi-sigma) added during the search, whatever LP point it was derived from.","all instances, all LP points, all feasible solutions","a wrong cut silently removes optimal solutions",SE+": Pi, Sigma, PiSigma",SG+": FindMinCut")
p("Comb cuts are valid","No feasible solution violates a 2-matching cut added during the search, whatever LP point it was derived from.","all instances, all LP points, all feasible solutions, all cut partitions","parity corner cases (even number of heavy edges, ties at 1 and 0)",SE+": TwoMatching")
p("Reduced-cost fixing keeps all improving solutions","With integral weights, fixing a variable by reduced costs never removes a feasible solution that is better than the current upper bound.","all LP optima, all bounds","rounding up the bound interacts with the reduced costs",MM+": BranchAndCutSolve (reduced cost fixing)")
p("Reported lower bound is a lower bound","At every moment the reported lower bound does not exceed the cost of any feasible solution.","all interleavings of any number of workers, all LP outcomes, all points at which the deadline may fall","schedules, LP outcomes and deadlines are unbounded",MM+": BranchAndCutSolve",Q+": GetLowerBound",MR+": UpdateLowerBound")
p("Solved means optimal","If the solver finishes with lower bound = upper bound, the reported paths are a feasible solution of minimum cost.","all instances, all interleavings, all deadlines","optimality is a statement about all solutions",MM+": BranchAndCutSolve",CA+": solve_mtsp_vrp")
p("Workers never trip over the queue's error checks","A worker that follows the solving loop never gets an error from pushing nodes or completing a node; raising its node's bound fails only if the LP value decreased.","all interleavings","an exception in a worker thread terminates the process",MM+": BranchAndCutSolve",Q+": Push, PushBranch, PushResult, NotifyNodeDone, UpdateCurrentLowerBound")
p("A node is solved under exactly its own fixings","When a worker solves a node, every binary variable has bounds [0,1] except those fixed by this node, whatever nodes the worker processed before.","all sequences of nodes processed by a worker","left-over fixings need particular sequences of nodes",MM+": FixVariables, UnfixVariables, BranchAndCutSolve",VA+": Fix, Unfix")
p("C API return codes","The C function returns the documented code for each class of invalid input before touching the outputs, on success SOLVED exactly when lower >= upper and TIMEOUT otherwise; a dependency error code is returned exactly if the dependencies are cyclic or incompatible (into a start, out of an end, or tying two agents together), the cyclic one only if they are cyclic.","all argument combinations and solver outcomes","combinations of error conditions",CA+": solve_mtsp_vrp","mtsp-vrp-c/include/mtsp-vrp-c.h")
p("C API path layout","On success agent a's path is found in the output buffer at its offset, consecutive paths adjoin, a closed tour is written without its repeated depot, and never more than N + 2A entries are written.","all instances","all sharing patterns",CA+": solve_mtsp_vrp")
p("Timeout before any solution","If the time is up before any solution was found, the C function reports that there is no result.","all instances, every point at which the deadline may fall","needs the deadline to fall inside the first heuristic",CA+": solve_mtsp_vrp",MM+": CreateInitialResult",HE+": NearestInsertionSum, NearestInsertionMax")
p("Python wrapper returns the complete paths","The Python function returns for every agent exactly the path the C function wrote for it.","all instances","shared depots make the total length exceed N",PY+": solve_mtsp_vrp",CA+": solve_mtsp_vrp")
p("Gomory-Hu callback reports genuine partitions","The tree construction calls back exactly N-1 times (unless told to stop), each time with two disjoint components that cover all nodes and separate the two reported nodes, and no pair is reported twice.","all graphs, all stop decisions, all max-flow results consistent with their contract","all split orders",GH+": CreateGomoryHuTree")
p("Gomory-Hu callback reports minimum cuts","Each reported cut is a minimum cut between the two reported nodes in the input graph and the reported size is its capacity.","all graphs with non-negative capacities","cuts are computed in contracted graphs",GH+": CreateGomoryHuTree")
p("The contracted graph enumerates all edges once","The edge, out-edge and edge-index enumerations of the dense graph list every ordered pair of distinct vertices exactly once with distinct indices inside the capacity table.","all vertex counts","all sizes",PG+": N2Edge, edges, out_edges, get(edge_index)")
p("Variable numbering is a bijection","Variable ids correspond one to one to (agent, from, to) triples, the LP has a column for every variable, and the optional maximum variable does not clash with any of them.","all sizes","all sizes",MM+": MtspModel::MtspModel, CalculateRecursivelyFixableVariables",MO+": Model::Model, AddVariable, GetBinaryVariables")
p("Branching variable selection","A branching variable is returned exactly when some binary variable is at least 1e-10 away from both 0 and 1 inside [0,1], and then it is a fractional variable closest to 1/2 up to 1e-10.","all LP points","all value patterns",MM+": FindFractionalVariable")
p("Input size check","The C function rejects every call with more than N/2 agents.","all 64-bit arguments","needs 64-bit wrap-around",CA+": solve_mtsp_vrp")
p("Processing order is a topological order","For every accepted instance the heuristic's processing order lists every node once and every node after all its dependency predecessors; the sort never fails.","all accepted instances","all graphs",HE+": NearestInsertionSum, NearestInsertionMax (topological_sort)")
p("Costs refer to the input weights","The objective of a feasible solution of the preprocessed instance equals the objective of the mapped-back paths under the weights the caller gave (dependency flags counting 0).","all accepted instances, all feasible solutions, both modes","all sharing patterns of depots",WM+": WeightManager::WeightManager, TransformPathsBack")
p("Heuristic solutions found during the search are backed","Whenever the heuristics find a solution during the search, the submitted paths form one path per agent from its start to its end covering every node once, and the submitted upper bound is exactly their objective.","all accepted instances, all fractional LP points, both modes, any deadline","all LP points",MM+": ExploitFractionalSolution",HE+": ExploitFractionalSolution")
p("Connectivity and precedence cuts make progress","Every connectivity or precedence cut that is added is violated by the LP point it was derived from, so the same point cannot come back.","all accepted instances, all LP points","a cut that is not violated makes the search loop on one node",SE+": Ucut, Pi, Sigma, PiSigma",SG+": FindMinCut")
p("Comb cuts make progress","Every 2-matching cut that is added is violated by the LP point it was derived from.","all accepted instances, all LP points, all reported partitions","needs particular fractional points",SE+": TwoMatching")
p("The Gomory-Hu construction stays inside its tables","In every iteration the vertex to split has at least two nodes, there is room for another tree vertex, the contracted graph has at most N vertices and every node a position in it, all neighbouring bags are nonempty, and all weights looked up are in the table.","all graphs, all iterations, all max-flow results consistent with their contract","out-of-bounds accesses need particular split sequences",GH+": CreateGomoryHuTree",PG+": Reset")
p("A complete search finds an optimum","If all workers finish and the deadline was never noticed, the stored paths are a feasible solution of minimum cost, whether or not the lower bound has been raised to it.","all instances, all interleavings of any number of workers, all LP answers","optimality is a statement about all solutions, all schedules","tsplp/src/MtspModel.cpp: BranchAndCutSolve")
p("Without a deadline the solver finishes SOLVED","If a solution exists, the deadline is never noticed and the LP solver answers every LP correctly, a call that ends returns SOLVED.","all accepted instances, all interleavings, all LP answers","needs every search tree",MM+": BranchAndCutSolve",CA+": solve_mtsp_vrp")
p("End-to-end optimality","If the C function returns SOLVED, the paths in the output buffer visit every node exactly once, respect all dependencies, and no admissible choice of paths is cheaper under the caller's weights; in any case the written bounds enclose the optimum.","all arguments, all interleavings, all LP answers, all deadlines","optimality is a statement about all solutions of all instances",CA+": solve_mtsp_vrp",MM+": BranchAndCutSolve, MtspModel::MtspModel",WM+": WeightManager, TransformPathsBack")
p("Assertions never fail","No assertion in the modelled code fails, for any accepted input, schedule and deadline.","all accepted inputs, all schedules, every point at which the deadline may fall","the assertions are compiled out of release builds and state facts about all executions",MM+": MtspModel, CreateInitialResult",HE+": TwoOptPaths",WM+": WeightManager")
p("Python wrapper returns the true lengths","If no node is a depot of two agents, the lengths returned by the Python function are the lengths of the returned paths under the caller's weights, the way back to the depot included.","all instances, all calls that succeed","closed and open tours are treated differently",PY+": solve_mtsp_vrp")
p("The search ends","If none of the workers is passed over forever by the scheduler, the search ends without any deadline: all workers leave their loops, or an exception ends the call after the LP solver reported an error.","all accepted instances, all fair interleavings of any number of workers, all LP answers","termination is a statement about infinite executions",MM+": BranchAndCutSolve",SE+": TwoMatching, Ucut, Pi, Sigma, PiSigma")
p("The deadline is honoured","Once the deadline has passed, the search ends after finitely many further steps, whatever the workers were doing, provided none of them is passed over forever by the scheduler.","all accepted instances, all fair interleavings of any number of workers, every point at which the deadline may fall","needs every state of every worker at the deadline",MM+": BranchAndCutSolve","tsplp/src/BranchAndCutQueue.cpp: Pop, ClearAll")
p("The LP solver is given the intended LP","After construction, and at every moment of the search for every worker, the problem stored in the LP solver is the intended one: same feasible points and same objective as the relaxation with the cuts read so far and the variables of the current node fixed; none of the calls that build it fails. An answer that is right about the stored problem is right about the intended one.","all accepted instances within the int limits, all interleavings, all LP answers, all batches of constraints","the compressed row arrays, the objective offset and the extra columns are invisible from outside",MO+": SetObjective, AddConstraints, AddVariable, Solve",MM+": MtspModel::MtspModel, BranchAndCutSolve","tsplp/src/ConstraintDeque.cpp: PopToModel")
p("Setting an objective replaces the previous one","After SetObjective the objective of the model is the given expression.","all models, all expressions, all histories of calls","depends on the history of earlier calls",MO+": SetObjective")
p("The callback sees the LP solution","Whenever the fractional callback is called, it is given nonnegative values for every agent and ordered pair of input nodes; at a node that is no depot they sum up to 1 in each direction and every agent enters and leaves it equally, at a depot to the number of agents starting or ending there; for an integral LP solution the values are the numbers of times the agent's path uses the arc, the arc back to the next agent's start included.","all accepted instances, all interleavings, all LP answers","all LP solutions, all sharing patterns of depots",MM+": BranchAndCutSolve (fractionalCallback)",WM+": TransformTensorBack",CA+": solve_mtsp_vrp (callback)")
p("Noise of the LP solver does no harm",
  "If every number the LP solver returns is within the solver's own tolerance of an exact optimum, the reported lower bound is valid and a search that ends without a deadline has found an optimum.",
  "all accepted instances, all interleavings, all LP answers within the tolerance",
  "tests see the noise of one LP solver on a few instances", "tsplp/src/MtspModel.cpp: BranchAndCutSolve (std::ceil(... - 1.e-10))", "tsplp/src/Model.cpp: Model::Solve")
p("Costs are computed exactly in floating point",
  "On every accepted input with integer weights below 2^31 and at most 2^19 nodes, rounding of the floating-point operations never shows in a result of the heuristics: path lengths and objectives are exact, the initial solution and its bound are the same as with exact arithmetic, and every solution submitted during the search, whose construction uses rounded weights, comes with exactly its cost.",
  "all accepted inputs within the stated sizes, all LP points, all rounding functions that keep integers up to 2^53 and are monotone",
  "rounding depends on the magnitudes of all intermediate sums",
  HE+": CalculatePathLength, CalculateObjective, NearestInsertionSum, NearestInsertionMax, TwoOptPaths, ExploitFractionalSolution", MM+": CreateInitialResult, ExploitFractionalSolution")
p("Gomory-Hu cuts answer every pair",
  "If the callback never asks to stop, then for any two different nodes one of the reported cuts is a minimum cut between them, although only N-1 cuts are reported.",
  "all graphs with nonnegative weights, all pairs of nodes, all max-flow results consistent with their contract",
  "quantifies over all cuts of all graphs", GH+": CreateGomoryHuTree")
p("2-matching separation is exact",
  "At every point of the LP relaxation, the 2-matching separation reports a constraint if and only if the point violates some 2-matching inequality (a handle with an odd number of teeth) by more than the tolerance of 1e-10; if it reports nothing, all of them hold up to the tolerance.",
  "all accepted instances, all LP points, all handles and sets of teeth",
  "exponentially many inequalities; the algorithm looks at N-1 handles only", SE+": TwoMatching", GH+": CreateGomoryHuTree")
p("Connectivity and precedence separation are exact",
  "At every nonnegative point, each of the separations for connectivity, predecessors, successors and single dependencies reports a cut if and only if the point violates some inequality of its kind by more than the tolerance of 1e-10.",
  "all accepted instances, all nonnegative points, all node sets",
  "exponentially many inequalities", SE+": Ucut, Pi, Sigma, PiSigma", SG+": FindMinCut")
p("Results do not depend on how they were computed",
  "Two calls for the same instance (same nodes, weights, depots and objective) that differ in the number of threads, the schedule, the time limit or the LP answers never contradict each other: the lower bound of one is not above the upper bound of the other, and if both return SOLVED they report the same cost.",
  "all instances, all pairs of calls, all interleavings and LP answers of both", "a statement about pairs of executions",
  CA+": solve_mtsp_vrp", MM+": BranchAndCutSolve")
p("Equivalent instances have the same cost",
  "Renumbering the nodes, reordering the agents or reversing all arcs (with starts and ends and dependencies exchanged accordingly) does not change the cost of a SOLVED call, and lowering weights does not increase it.",
  "all instances, all renumberings, all orders of agents, all pairs of calls", "a statement about pairs of executions on pairs of instances",
  CA+": solve_mtsp_vrp", MM+": BranchAndCutSolve", WM+": WeightManager")
p("The Python function solves the caller's instance",
  "The Python function hands the C function the caller's starts, ends, weights and objective unchanged, or raises an error; it returns complete paths with true lengths that are optimal if the C function returned SOLVED; and for every error the exception names its reason.",
  "all Python arguments (any numbers as weights, any shapes), all calls", "the conversion to int arrays is silent",
  PY+": solve_mtsp_vrp")
p("Lengths and bound of the Python function agree",
  "The lengths returned by the Python function add up to the returned upper bound (objective sum), or the largest of them is the upper bound (objective max).",
  "all instances, all calls that succeed", "lengths and bounds are computed from different matrices",
  PY+": solve_mtsp_vrp", MM+": CalculateObjective")
p("No worker sleeps next to queued nodes",
  "Whenever nodes are queued, the queue is not cleared and a worker is blocked in Pop, some other worker is about to notify it or on its way to the queue.",
  "all interleavings of any number of workers, including spurious wake-ups", "needs particular interleavings; the effect is only a loss of speed",
  "tsplp/src/BranchAndCutQueue.cpp: Pop, Push, PushResult, PushBranch, NotifyNodeDone")
p("The improvement heuristic ends at a local optimum",
  "If the improvement heuristic is not cut off by the deadline, its result cannot be improved by exchanging two inner nodes, on the same path or on different paths, in any way that respects the dependencies: every such exchange leaves the objective at least as large.",
  "all weights, both objectives, all dependencies, all starting paths that keep dependent nodes together, all exchanges", "a statement about all exchanges at the end of a loop of unknown length",
  HE+": TwoOptPaths, PathsInfo")

p("The heuristics never access outside of their data",
  "For every accepted instance whose weights are small enough that no insertion costs DBL_MAX or more, every deadline and (during the search) every fractional solution, the construction and the improvement heuristic never read or write a path, a length, a weight, a component or a dependency outside of its container, never insert outside of a path and never compute size() - 1 of an empty path. With weights of DBL_MAX the construction does.",
  "all accepted instances, all weights, both objectives, all deadlines, all fractional solutions; for the improvement all sets of non-empty paths", "an access outside of a vector may go unnoticed in any number of tests",
  HE+": NearestInsertion, ExploitFractionalSolution, TwoOptPaths, CalculateObjective")
p("The initial solution does not depend on a sufficient time limit",
  "For every accepted instance there is an amount of time from which on the initial result (bound, paths or error) is always the same.",
  "all accepted instances, both objectives, all deadlines", "quantifies over all deadlines",
  MM+": CreateInitialResult", HE+": NearestInsertion, TwoOptPaths")

p("Cutting planes are valid in floating point",
  "However the sums, differences and constants in the separation algorithms are rounded, and whatever cuts the minimum cut algorithms find with their rounded numbers: no feasible solution violates a connectivity, precedence or comb constraint that is added. The Gomory-Hu construction with rounded capacities still ends after at most N - 1 iterations and reports partitions.",
  "all monotone rounding functions that keep small integers, all LP solutions (feasible or not), all instances, all minimum cut algorithms whose answers are cuts", "rounding errors need particular fractional points; an invalid cut silently removes the optimum",
  SE+": Ucut, Pi, Sigma, PiSigma, TwoMatching", SG+": FindMinCut", GH+": CreateGomoryHuTree")

p("Waiting for work is harmless",
  "A worker that finds the queue empty sleeps until it is notified. This changes nothing about what the search can find: exactly the same states are reached as if it looked again and again. A sleeping worker owns no node; while one sleeps, another one runs or is about to wake it; when there will be no more work, somebody is about to wake all of them; and once the deadline has passed every sleeping worker is woken up, even if there are no spurious wake-ups.",
  "all accepted instances, all numbers of workers, all interleavings of their critical sections and notifications, all choices of the worker that notify_one wakes, all LP answers", "lost wake-ups need particular interleavings of the search, and show as a program that hangs",
  "tsplp/src/BranchAndCutQueue.cpp: Pop, ClearAll, Push, PushResult, PushBranch, NotifyNodeDone", MM+": BranchAndCutSolve")

p("Locking makes the shared objects safe",
  "While the search is running, at no time do two threads access the queue, the result or the pool of constraints at the same time, no thread waits for a mutex whose owner cannot go on, and however the single statements of the threads are interleaved, the search reaches exactly the states it would reach if every call of a member function were one indivisible step. A thread that asks for the bounds in the meantime is told the bounds of one state of the search, the lower never above the upper. (Reading the paths in the meantime is not safe: that function takes no lock.)",
  "all accepted instances, all numbers of workers and observers, all interleavings of single statements, all LP answers and clock readings", "data races and torn reads need particular interleavings of single statements",
  Q+": all member functions", MR+": all member functions", "tsplp/include/MtspResult.hpp: GetPaths", CD+": Push, PopToModel", MM+": BranchAndCutSolve")

p("A call comes back",
  "Whatever goes wrong while solving, the C function returns to its caller with a return code; in particular a failure of the LP solver is reported as an internal error.",
  "all accepted arguments, all numbers of workers, all schedules, all LP answers including failures", "LP solvers fail on rare numerical conditions that cannot be provoked at will",
  CA+": solve_mtsp_vrp", MM+": BranchAndCutSolve")

p("Separation works in floating point",
  "With the sums and constants of the separation rounded to double precision and minimum cuts off by at most 1e-11: whenever a point violates a connectivity or precedence inequality by more than 2e-10, a cut is found; every cut that is found is violated by the point; so integral LP answers (up to 1e-10) for which nothing is found are feasible solutions, and at feasible solutions nothing is found.",
  "all roundings with relative error 2^-53, all accepted instances, all nonnegative LP points whose arcs are used at most 1.5 times, all minimum cut algorithms that are this accurate", "rounding errors need particular fractional points",
  SE+": Ucut, Pi, Sigma, PiSigma", SG+": FindMinCut", MM+": BranchAndCutSolve")

p("The search is right in floating point",
  "With every addition, subtraction, multiplication and decimal constant of the search rounded to double precision, and an LP solver as accurate as double precision allows, the reported lower bound is a lower bound on the cost of every feasible solution, bounds that meet belong to an optimum, and a search that ends without a deadline has found one; the reported paths always cost what is reported.",
  "all accepted weights, all numbers of workers, all schedules, all orders in which the terms of the objective function are added, all LP answers up to their noise", "the weights, fractional values and orders of summation for which a rounding error exceeds the tolerance are rare and depend on the machine",
  MM+": BranchAndCutSolve, FindFractionalVariable, CreatePathsFromVariables", LVC+": Evaluate")

p("The 2-matching separation stays inside its arrays",
  "Separating 2-matching cuts never reads or writes outside of the arrays it works on (edge tables, parities, spans of nodes that are partitioned in place, capacities and colours of the contracted graph), never takes the first node of an empty span, and never asks for a flow from a node to itself; and working in place, with stale entries of earlier iterations in the arrays, does not change the cuts that are reported.",
  "all numbers of agents and nodes, all LP solutions, all minimum cuts a flow algorithm may choose, all orders std::partition may leave the nodes in, all roundings", "which array cells are touched depends on the sequence of minimum cuts, which depends on fractional LP solutions; an access outside usually goes unnoticed",
  SE+": TwoMatching", GH+": CreateGomoryHuTree", PG+": PartiallyContractedGraph")

p("A dependency error means that there is no solution",
  "For accepted arguments, the C function returns one of the codes for dependency errors exactly if no assignment of paths (each node that is nobody's start or end on exactly one path, each path from its agent's start to its end) visits, for each dependency, the first node before the second on some path.",
  "all weight matrices with dependencies, all starts and ends, all objectives, all executions", "whether a solution exists depends on how dependencies combine with each other and with depots, on arbitrarily many nodes and agents",
  CA+": solve_mtsp_vrp", WM+": WeightManager::WeightManager", DH+": DependencyGraph", HE+": NearestInsertion")

p("The benchmark driver does not reject correct results",
  "For one agent and an instance whose optimum is known, the benchmark driver never stops with a complaint about the bounds it got, and what it records is consistent: the lower bound is not above the upper bound, the gap is not negative, and it is 0 exactly if the bounds agree.",
  "all square matrices of weights and dependencies, both objectives, all executions of the solver", "the driver compares with one number per instance on a handful of files; whether the comparison can go wrong depends on every schedule and every instance",
  "python/tsplib/tsplib.py: main", PY+": solve_mtsp_vrp", CA+": solve_mtsp_vrp")
p("Callback values cost no more than any solution",
  "While the search has not fixed any variable yet, the values given to the fractional callback, multiplied by the caller's weights and less one artificial way per agent from its end to the next agent's start, cost at most what any solution costs (their sum for objective sum, each agent's for objective max), but for the LP solver's noise of 1e-10 per value. The cost that the demo annotates is at most that, and equals it if the artificial ways cost nothing.",
  "every accepted instance with or without dependencies, both objectives, every interleaving of the workers, all LP answers, every solution of the instance",
  "The values are one of infinitely many fractional points, and the bound is about all solutions of the instance, of which a test can try only a few; a wrong weight on a copied depot shows only where the LP uses it.",
  "tsplp/src/MtspModel.cpp:BranchAndCutSolve", "tsplp/src/WeightManager.cpp:TransformTensorBack", "python/demos/progress_visualization.py:draw_fractional_solution")
p("What the solver knows never gets worse",
  "While the search is running, the cost of the best solution never increases, other paths are stored only together with a smaller cost, the lower bound decreases only if a solution with a smaller cost has been found, and then not below that cost, and a deadline that has been noticed is not forgotten. In particular the result of a call is never worse than what the constructor's heuristic left.",
  "all inputs, all numbers of workers, all interleavings, all LP answers, heuristic results and clock readings, all pairs of an earlier and a later moment",
  "a bound that moves back for a moment is seen only if somebody looks at that moment, and depends on the interleaving of the workers",
  "tsplp/src/MtspResult.cpp: UpdateUpperBound, UpdateLowerBound, SetTimeoutHit","tsplp/src/MtspModel.cpp: BranchAndCutSolve")

WHY={
 "C15":"a missing or a superfluous pair shows only for particular shapes of the dependency graph, and there are infinitely many",
 "C21":"which input node a duplicate stands for depends on the pattern in which agents share depots; patterns are unbounded",
 "C23":"the sum and the maximum run over arbitrarily many paths of arbitrary length; the initial value 0 matters only for particular weights",
 "C24":"the insertion order depends on all weights and dependencies; a lost or doubled node may appear only at one combination",
 "C25":"dependencies tie nodes together through chains of any length, found in any order",
 "C28":"the sequence of improving exchanges depends on all weights and is unbounded",
 "C31":"a test that does not end has shown nothing, and one that ends says nothing about other weights",
 "C35":"it is a statement about every integral point of infinitely many polytopes",
 "C36":"it concerns every set of paths of every size, with any number of agents",
 "C47":"the offsets depend on which agents share depots and on the lengths of all paths before",
 "C50":"the order in which sets of nodes are split depends on every minimum cut found before",
 "C52":"an edge that is skipped or visited twice may need a particular size or a particular contraction",
 "C53":"two variables may collide only for one combination of agents and nodes; there are infinitely many sizes",
 "C54":"which variable is chosen depends on the whole pattern of fractional values, ties included",
 "C56":"the order depends on the dependency graph, whose shapes are unbounded",
 "C58":"heuristics run on the fractional point of any node of any search tree",
 "C63":"it is about every search tree and every schedule, and about not running for ever",
 "C14":"cycles can have any length and can pass through depots and their duplicates"}
QUANT={"C17":"all sizes, starts, ends and weight matrices","C21":"all sets of paths over all node duplications","C30":"all paths, weights and dependencies, both modes, any time limit","C53":"all numbers of agents and nodes, all pairs of variables"}
for x in P:
    if x["id"] in WHY: x["why_tests_cant"]=WHY[x["id"]]
    if x["id"] in QUANT: x["quantifier"]=QUANT[x["id"]]

if __name__=="__main__":
    out=os.path.join(os.path.dirname(os.path.abspath(__file__)),"..","properties.jsonl")
    with open(out,"w") as f:
        for x in P: f.write(json.dumps(x)+"\n")
    for x in P: print(x["id"],x["title"])
