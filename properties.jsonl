{"id": "C01", "title": "Linear expressions evaluate homomorphically", "statement": "For any two linear expressions and any assignment of values to the LP variables, evaluating their sum, difference, negation, scalar multiple or in-place sum gives the sum, difference, negation, multiple of their values; and no expression built with these operators mentions a variable twice.", "quantifier": "all expressions built by any nesting of the operators, all variable values", "why_tests_cant": "tests evaluate a handful of expressions; the operators swap operands by size and merge hash maps, so every overlap pattern of variables matters", "anchors": ["tsplp/src/LinearVariableComposition.cpp: operator+, operator+=, operator-, operator*, Evaluate"]}
{"id": "C02", "title": "A constraint means its comparison", "statement": "The constraint object made by lhs <= rhs, lhs >= rhs or lhs == rhs is reported satisfied at a point (with tolerance t) exactly when the values of the two sides satisfy the comparison up to t.", "quantifier": "all pairs of expressions, all points, all tolerances, within the double range", "why_tests_cant": "constants and coefficients may be on both sides and cancel; a sign slip shows only for some combinations", "anchors": ["tsplp/src/LinearConstraint.cpp: operator<=, operator>=, operator==, Evaluate"]}
{"id": "C03", "title": "Result bounds never cross", "statement": "At every moment of every concurrent run, the result object's lower bound is at most its upper bound.", "quantifier": "all finite sequences (hence all lock-serialised interleavings) of bound updates and reads by any number of threads", "why_tests_cant": "only some schedules race a lower-bound update with an upper-bound update", "anchors": ["tsplp/src/MtspResult.cpp: UpdateLowerBound, UpdateUpperBound, GetBounds"]}
{"id": "C04", "title": "Result bounds do not depend on the schedule", "statement": "After any set of updates the reported upper bound is the smallest submitted upper bound and the reported lower bound is the largest submitted lower bound capped by the upper bound, whatever the order in which the updates were applied; in particular the upper bound never grows and a valid pair of bounds stays valid.", "quantifier": "all update histories and all their permutations", "why_tests_cant": "needs every interleaving of every multiset of updates", "anchors": ["tsplp/src/MtspResult.cpp: UpdateLowerBound, UpdateUpperBound"]}
{"id": "C05", "title": "Reported paths belong to the reported upper bound", "statement": "The paths kept in the result are always the ones that were submitted together with the value that is now the upper bound (none before the first improvement), and they are replaced only by strictly better ones.", "quantifier": "all update histories", "why_tests_cant": "a torn or mismatched update shows only under particular interleavings", "anchors": ["tsplp/src/MtspResult.cpp: UpdateUpperBound", "tsplp/include/MtspResult.hpp: GetPaths"]}
{"id": "C06", "title": "Queue lower bound is the true minimum", "statement": "GetLowerBound returns the minimum of the lower bounds of all queued nodes and all nodes that threads are working on, and -DBL_MAX when there are none.", "quantifier": "all histories of pushes, pops, bound updates, completions and clears from a fresh queue, any number of threads", "why_tests_cant": "depends on the heap being well formed after arbitrary histories", "anchors": ["tsplp/src/BranchAndCutQueue.cpp: GetLowerBound, CalculateLowerBound"]}
{"id": "C07", "title": "Pop hands out a best node", "statement": "A node handed out by Pop has a lower bound no larger than that of any node still queued.", "quantifier": "all reachable queue states", "why_tests_cant": "heap order bugs need particular insertion orders", "anchors": ["tsplp/src/BranchAndCutQueue.cpp: Pop, Push, PushBranch, PushResult"]}
{"id": "C08", "title": "Queue lower bound is monotone", "statement": "No operation on the queue lowers GetLowerBound, except the completion that leaves the queue empty with nobody working, after which it is -DBL_MAX.", "quantifier": "all histories, all operations", "why_tests_cant": "a decrease would need a particular interleaving of push, completion and pop", "anchors": ["tsplp/src/BranchAndCutQueue.cpp: Push, PushBranch, PushResult, Pop, UpdateCurrentLowerBound, NotifyNodeDone"]}
{"id": "C09", "title": "Push guards", "statement": "A push is refused with an error exactly when its lower bound is smaller than GetLowerBound, and then changes nothing; after ClearAll every push is silently ignored and every Pop returns nothing; UpdateCurrentLowerBound is refused exactly when the thread holds no node or the bound would decrease.", "quantifier": "all reachable states and all arguments", "why_tests_cant": "error branches interact with the clear flag and the concurrent state", "anchors": ["tsplp/src/BranchAndCutQueue.cpp: Push, PushBranch, PushResult, Pop, ClearAll, UpdateCurrentLowerBound"]}
{"id": "C10", "title": "No node is lost or duplicated", "statement": "As long as the queue is not cleared, the nodes handed out so far together with the nodes still queued are exactly the nodes pushed so far, each exactly once and with unchanged data.", "quantifier": "all histories, any number of threads", "why_tests_cant": "a lost node is a silently lost part of the search space; it needs the right heap shape", "anchors": ["tsplp/src/BranchAndCutQueue.cpp: Push, PushBranch, PushResult, Pop"]}
{"id": "C11", "title": "Branching partitions the search space", "statement": "Branching on a variable creates two nodes with the parent's lower bound such that every feasible solution of the parent satisfies the fixings of exactly one of them and no other solution is added.", "quantifier": "all parents, all branching variables, all feasible solutions", "why_tests_cant": "quantifies over all solutions of all instances", "anchors": ["tsplp/src/BranchAndCutQueue.cpp: PushBranch", "tsplp/src/MtspModel.cpp: CalculateRecursivelyFixableVariables, BranchAndCutSolve"]}
{"id": "C12", "title": "No worker waits forever", "statement": "In every schedule, as long as some worker has not left its loop, some worker can make a step: a worker blocked in Pop is always woken when work appears in an empty queue, when all work is done or when the queue is cleared.", "quantifier": "all interleavings of any number of workers, including spurious wake-ups", "why_tests_cant": "lost wake-ups occur only in rare interleavings", "anchors": ["tsplp/src/BranchAndCutQueue.cpp: Pop, Push, NotifyNodeDone, ClearAll", "tsplp/src/MtspModel.cpp: BranchAndCutSolve"]}
{"id": "C13", "title": "Every thread sees every cut exactly once", "statement": "Each worker's LP receives every globally pushed constraint exactly once and in push order; discarding already-read constraints never discards one that some worker has not read and never moves a read position out of range.", "quantifier": "all interleavings of pushes and pops by any number of threads", "why_tests_cant": "the read positions are shifted concurrently by one thread", "anchors": ["tsplp/src/ConstraintDeque.cpp: Push, PopToModel"]}
{"id": "C14", "title": "Cyclic dependencies are rejected, acyclic ones never", "statement": "The dependency preprocessing reports a cycle exactly when the input dependency relation has a cycle (self dependency included).", "quantifier": "all weight matrices", "why_tests_cant": "cycles can have any length and can pass through depots and their duplicates", "anchors": ["tsplp/src/DependencyHelpers.cpp: CreateTransitiveDependencies", "graph-algos/include/HasCycle.hpp: HasCycle, CycleDetector"]}
{"id": "C15", "title": "Dependencies are closed transitively, nothing else changes", "statement": "For acyclic input the processed matrix has the dependency flag at (v,u) exactly when v is reachable from u through one or more input dependencies, and every other entry is unchanged.", "quantifier": "all matrices", "why_tests_cant": "a missing or a superfluous pair shows only for particular shapes of the dependency graph, and there are infinitely many", "anchors": ["tsplp/src/DependencyHelpers.cpp: CreateTransitiveDependencies"]}
{"id": "C16", "title": "Dependency queries agree", "statement": "The list of arcs, the predecessor list, the successor list and the arc test of the dependency graph all describe the same relation: u before v iff weights(v,u) = -1; no entry is repeated and every listed node is in range.", "quantifier": "all matrices and nodes", "why_tests_cant": "flattened span indices must be right for every row", "anchors": ["tsplp/src/DependencyHelpers.cpp: DependencyGraph, GetIncomingSpan, GetOutgoingSpan", "tsplp/include/DependencyHelpers.hpp: HasArc, GetArcs"]}
{"id": "C17", "title": "Instance validation", "statement": "Construction fails with an argument error exactly when the start and end lists differ in length, there is no agent, the matrix is not square, there are fewer than two nodes, or a start or end position is out of range.", "quantifier": "all sizes, starts, ends and weight matrices", "why_tests_cant": "the checks are interleaved with the node duplication", "anchors": ["tsplp/src/WeightManager.cpp: WeightManager::WeightManager"]}
{"id": "C18", "title": "Every agent gets its own start and end", "statement": "After preprocessing the start and end nodes of all agents are pairwise distinct and in range, and map back to the nodes the caller asked for.", "quantifier": "all valid inputs, any number of agents sharing depots in any pattern", "why_tests_cant": "all sharing patterns of starts and ends", "anchors": ["tsplp/src/WeightManager.cpp: WeightManager::WeightManager, ToOriginal"]}
{"id": "C19", "title": "Preprocessed weights mirror the input", "statement": "Between any two preprocessed nodes the weight equals the input weight of the nodes they stand for, except on the diagonal (0), on the artificial end-to-next-start arcs (0), for dependency flags (which appear for transitive consequences and disappear on duplicated depots, where they become 0).", "quantifier": "all valid inputs and node pairs", "why_tests_cant": "sharing patterns and closure interact", "anchors": ["tsplp/src/WeightManager.cpp: WeightManager::WeightManager"]}
{"id": "C20", "title": "Input dependencies survive preprocessing", "statement": "An accepted instance has no dependency into a start or out of an end, and every input dependency is either still present or (single agent, start before end) already implied by the agent's path.", "quantifier": "all accepted inputs", "why_tests_cant": "the artificial arcs overwrite matrix entries that may hold dependency flags", "anchors": ["tsplp/src/WeightManager.cpp: WeightManager::WeightManager"]}
{"id": "C21", "title": "Paths are mapped back correctly", "statement": "Mapping preprocessed paths back replaces each node by the input node it stands for, keeps all lengths, and makes agent a's path run from its requested start to its requested end.", "quantifier": "all sets of paths over all node duplications", "why_tests_cant": "which input node a duplicate stands for depends on the pattern in which agents share depots; patterns are unbounded", "anchors": ["tsplp/src/WeightManager.cpp: TransformPathsBack, ToOriginal"]}
{"id": "C22", "title": "Fractional values are mapped back correctly", "statement": "The tensor reported to the callback has, for every agent and every pair of input nodes, the sum of the LP values of all preprocessed arcs that stand for this pair; the total over all pairs is preserved.", "quantifier": "all tensors and sharing patterns", "why_tests_cant": "double counting occurs only when both endpoints are duplicates", "anchors": ["tsplp/src/WeightManager.cpp: TransformTensorBack"]}
{"id": "C23", "title": "Objective of a set of paths", "statement": "The computed objective is the sum of all path lengths in Sum mode and the largest path length (at least 0) in Max mode, where a path's length is the sum of the weights of its consecutive arcs.", "quantifier": "all paths, weights and modes", "why_tests_cant": "the sum and the maximum run over arbitrarily many paths of arbitrary length; the initial value 0 matters only for particular weights", "anchors": ["tsplp/src/Heuristics.cpp: CalculatePathLength, CalculateObjective"]}
{"id": "C24", "title": "Construction heuristic visits everything exactly once", "statement": "If the construction heuristic finishes in time, it returns one path per agent, running from the agent's start to its end, and every node is on exactly one path exactly once.", "quantifier": "all accepted instances, all weights (also the fractional ones used during search), both modes", "why_tests_cant": "the insertion order depends on all weights and dependencies; a lost or doubled node may appear only at one combination", "anchors": ["tsplp/src/Heuristics.cpp: NearestInsertionSum, NearestInsertionMax, NearestInsertion"]}
{"id": "C25", "title": "Construction heuristic keeps dependent nodes together", "statement": "In the construction heuristic's result two nodes linked by a dependency are always on the same agent's path; if the dependencies tie two agents together the instance is rejected as incompatible.", "quantifier": "all accepted instances, both modes", "why_tests_cant": "dependencies tie nodes together through chains of any length, found in any order", "anchors": ["tsplp/src/Heuristics.cpp: NearestInsertionSum, NearestInsertionMax"]}
{"id": "C26", "title": "Construction heuristic respects the order of dependencies", "statement": "In the construction heuristic's result every dependency u before v is respected on its path.", "quantifier": "all accepted instances, both modes", "why_tests_cant": "insertion positions shift when other nodes are inserted in front of them", "anchors": ["tsplp/src/Heuristics.cpp: NearestInsertionSum, NearestInsertionMax"]}
{"id": "C27", "title": "Construction heuristic reports the true objective", "statement": "The objective value returned with the constructed paths is the objective of these paths.", "quantifier": "all instances and weights, both modes", "why_tests_cant": "the Max bookkeeping has a special case for insertions that shorten a path", "anchors": ["tsplp/src/Heuristics.cpp: NearestInsertionSum, NearestInsertionMax"]}
{"id": "C28", "title": "Improvement heuristic only exchanges inner nodes", "statement": "The improvement heuristic keeps the number of paths, each path's length, first and last node, and the multiset of all nodes.", "quantifier": "all paths with at least two nodes each, all weights, any time limit, both modes", "why_tests_cant": "the sequence of improving exchanges depends on all weights and is unbounded", "anchors": ["tsplp/src/Heuristics.cpp: TwoOptPaths"]}
{"id": "C29", "title": "Improvement heuristic reports its improvement exactly and never worsens", "statement": "The reported improvement is the old objective minus the new objective and is never negative.", "quantifier": "all inputs, any time limit, both modes (Max: path lengths non-negative)", "why_tests_cant": "adjacent and inter-path exchanges use different formulas", "anchors": ["tsplp/src/Heuristics.cpp: TwoOptPaths, PathsInfo"]}
{"id": "C30", "title": "Improvement heuristic preserves dependencies", "statement": "If the given paths respect all dependencies, so do the improved paths.", "quantifier": "all paths, weights and dependencies, both modes, any time limit", "why_tests_cant": "needs a particular sequence of exchanges at one position", "anchors": ["tsplp/src/Heuristics.cpp: TwoOptPaths"]}
{"id": "C31", "title": "Improvement heuristic terminates", "statement": "The improvement loop stops by itself after finitely many rounds.", "quantifier": "all inputs, both modes", "why_tests_cant": "a test that does not end has shown nothing, and one that ends says nothing about other weights", "anchors": ["tsplp/src/Heuristics.cpp: TwoOptPaths"]}
{"id": "C32", "title": "Initial upper bound is backed by paths", "statement": "After constructing a solver the upper bound equals the objective of the stored initial paths, whenever the deadline is hit.", "quantifier": "all accepted instances, every point at which the deadline may fall", "why_tests_cant": "the deadline may fall inside the construction heuristic", "anchors": ["tsplp/src/MtspModel.cpp: CreateInitialResult, MtspModel::MtspModel", "tsplp/src/MtspResult.cpp: UpdateUpperBound"]}
{"id": "C33", "title": "The LP admits every feasible solution", "statement": "The 0/1 point of every feasible set of paths satisfies every constraint of the initial LP.", "quantifier": "all accepted instances, all feasible solutions", "why_tests_cant": "all instances and solutions; special cases for one agent and for start/end dependencies", "anchors": ["tsplp/src/MtspModel.cpp: MtspModel::MtspModel"]}
{"id": "C34", "title": "The LP objective is the true cost", "statement": "At the 0/1 point of a feasible set of paths the LP objective equals the total path length (Sum), respectively can be as low as and never below the longest path (Max).", "quantifier": "all accepted instances and feasible solutions", "why_tests_cant": "the artificial arcs must cost nothing", "anchors": ["tsplp/src/MtspModel.cpp: CreateObjective, CreateSumObjective, CreateMaxObjective"]}
{"id": "C35", "title": "Integral LP solutions without violated cuts are feasible solutions", "statement": "If an LP point is integral up to the tolerance 1e-10, belongs to a point that satisfies the initial constraints and no cut is violated, the paths read off it form a feasible solution.", "quantifier": "all accepted instances and points", "why_tests_cant": "it is a statement about every integral point of infinitely many polytopes", "anchors": ["tsplp/src/MtspModel.cpp: CreatePathsFromVariables, BranchAndCutSolve", "tsplp/src/SeparationAlgorithms.cpp: Ucut, Pi, Sigma, PiSigma"]}
{"id": "C36", "title": "Reading paths off a solution point is inverse to encoding them", "statement": "Reading the paths off the 0/1 point of a feasible solution returns exactly this solution (mapped back to input nodes).", "quantifier": "all feasible solutions", "why_tests_cant": "it concerns every set of paths of every size, with any number of agents", "anchors": ["tsplp/src/MtspModel.cpp: CreatePathsFromVariables"]}
{"id": "C37", "title": "Implied fixings are sound", "statement": "If a feasible solution uses arc (u,v) with agent a, then none of the variables that the solver fixes to zero as a consequence is used by it.", "quantifier": "all instances, all arcs, all feasible solutions", "why_tests_cant": "depends on start/end positions and dependencies", "anchors": ["tsplp/src/MtspModel.cpp: CalculateRecursivelyFixableVariables"]}
{"id": "C38", "title": "Connectivity cuts are valid", "statement": "No feasible solution violates a connectivity cut added during the search, whatever LP point it was derived from.", "quantifier": "all instances, all LP points, all feasible solutions", "why_tests_cant": "a wrong cut silently removes optimal solutions", "anchors": ["tsplp/src/SeparationAlgorithms.cpp: Ucut"]}
{"id": "C39", "title": "Precedence cuts are valid", "statement": "No feasible solution violates a precedence cut (pi, sigma, pi-sigma) added during the search, whatever LP point it was derived from.", "quantifier": "all instances, all LP points, all feasible solutions", "why_tests_cant": "a wrong cut silently removes optimal solutions", "anchors": ["tsplp/src/SeparationAlgorithms.cpp: Pi, Sigma, PiSigma", "tsplp/src/SupportGraphs.cpp: FindMinCut"]}
{"id": "C40", "title": "Comb cuts are valid", "statement": "No feasible solution violates a 2-matching cut added during the search, whatever LP point it was derived from.", "quantifier": "all instances, all LP points, all feasible solutions, all cut partitions", "why_tests_cant": "parity corner cases (even number of heavy edges, ties at 1 and 0)", "anchors": ["tsplp/src/SeparationAlgorithms.cpp: TwoMatching"]}
{"id": "C41", "title": "Reduced-cost fixing keeps all improving solutions", "statement": "With integral weights, fixing a variable by reduced costs never removes a feasible solution that is better than the current upper bound.", "quantifier": "all LP optima, all bounds", "why_tests_cant": "rounding up the bound interacts with the reduced costs", "anchors": ["tsplp/src/MtspModel.cpp: BranchAndCutSolve (reduced cost fixing)"]}
{"id": "C42", "title": "Reported lower bound is a lower bound", "statement": "At every moment the reported lower bound does not exceed the cost of any feasible solution.", "quantifier": "all interleavings of any number of workers, all LP outcomes, all points at which the deadline may fall", "why_tests_cant": "schedules, LP outcomes and deadlines are unbounded", "anchors": ["tsplp/src/MtspModel.cpp: BranchAndCutSolve", "tsplp/src/BranchAndCutQueue.cpp: GetLowerBound", "tsplp/src/MtspResult.cpp: UpdateLowerBound"]}
{"id": "C43", "title": "Solved means optimal", "statement": "If the solver finishes with lower bound = upper bound, the reported paths are a feasible solution of minimum cost.", "quantifier": "all instances, all interleavings, all deadlines", "why_tests_cant": "optimality is a statement about all solutions", "anchors": ["tsplp/src/MtspModel.cpp: BranchAndCutSolve", "mtsp-vrp-c/src/mtsp-vrp-c.cpp: solve_mtsp_vrp"]}
{"id": "C44", "title": "Workers never trip over the queue's error checks", "statement": "A worker that follows the solving loop never gets an error from pushing nodes or completing a node; raising its node's bound fails only if the LP value decreased.", "quantifier": "all interleavings", "why_tests_cant": "an exception in a worker thread terminates the process", "anchors": ["tsplp/src/MtspModel.cpp: BranchAndCutSolve", "tsplp/src/BranchAndCutQueue.cpp: Push, PushBranch, PushResult, NotifyNodeDone, UpdateCurrentLowerBound"]}
{"id": "C45", "title": "A node is solved under exactly its own fixings", "statement": "When a worker solves a node, every binary variable has bounds [0,1] except those fixed by this node, whatever nodes the worker processed before.", "quantifier": "all sequences of nodes processed by a worker", "why_tests_cant": "left-over fixings need particular sequences of nodes", "anchors": ["tsplp/src/MtspModel.cpp: FixVariables, UnfixVariables, BranchAndCutSolve", "tsplp/src/Variable.cpp: Fix, Unfix"]}
{"id": "C46", "title": "C API return codes", "statement": "The C function returns the documented code for each class of invalid input before touching the outputs, on success SOLVED exactly when lower >= upper and TIMEOUT otherwise; a dependency error code is returned exactly if the dependencies are cyclic or incompatible (into a start, out of an end, or tying two agents together), the cyclic one only if they are cyclic.", "quantifier": "all argument combinations and solver outcomes", "why_tests_cant": "combinations of error conditions", "anchors": ["mtsp-vrp-c/src/mtsp-vrp-c.cpp: solve_mtsp_vrp", "mtsp-vrp-c/include/mtsp-vrp-c.h"]}
{"id": "C47", "title": "C API path layout", "statement": "On success agent a's path is found in the output buffer at its offset, consecutive paths adjoin, a closed tour is written without its repeated depot, and never more than N + 2A entries are written.", "quantifier": "all instances", "why_tests_cant": "the offsets depend on which agents share depots and on the lengths of all paths before", "anchors": ["mtsp-vrp-c/src/mtsp-vrp-c.cpp: solve_mtsp_vrp"]}
{"id": "C48", "title": "Timeout before any solution", "statement": "If the time is up before any solution was found, the C function reports that there is no result.", "quantifier": "all instances, every point at which the deadline may fall", "why_tests_cant": "needs the deadline to fall inside the first heuristic", "anchors": ["mtsp-vrp-c/src/mtsp-vrp-c.cpp: solve_mtsp_vrp", "tsplp/src/MtspModel.cpp: CreateInitialResult", "tsplp/src/Heuristics.cpp: NearestInsertionSum, NearestInsertionMax"]}
{"id": "C49", "title": "Python wrapper returns the complete paths", "statement": "The Python function returns for every agent exactly the path the C function wrote for it.", "quantifier": "all instances", "why_tests_cant": "shared depots make the total length exceed N", "anchors": ["python/mtsp_vrp.py: solve_mtsp_vrp", "mtsp-vrp-c/src/mtsp-vrp-c.cpp: solve_mtsp_vrp"]}
{"id": "C50", "title": "Gomory-Hu callback reports genuine partitions", "statement": "The tree construction calls back exactly N-1 times (unless told to stop), each time with two disjoint components that cover all nodes and separate the two reported nodes, and no pair is reported twice.", "quantifier": "all graphs, all stop decisions, all max-flow results consistent with their contract", "why_tests_cant": "the order in which sets of nodes are split depends on every minimum cut found before", "anchors": ["graph-algos/src/GomoryHuTree.cpp: CreateGomoryHuTree"]}
{"id": "C51", "title": "Gomory-Hu callback reports minimum cuts", "statement": "Each reported cut is a minimum cut between the two reported nodes in the input graph and the reported size is its capacity.", "quantifier": "all graphs with non-negative capacities", "why_tests_cant": "cuts are computed in contracted graphs", "anchors": ["graph-algos/src/GomoryHuTree.cpp: CreateGomoryHuTree"]}
{"id": "C52", "title": "The contracted graph enumerates all edges once", "statement": "The edge, out-edge and edge-index enumerations of the dense graph list every ordered pair of distinct vertices exactly once with distinct indices inside the capacity table.", "quantifier": "all vertex counts", "why_tests_cant": "an edge that is skipped or visited twice may need a particular size or a particular contraction", "anchors": ["graph-algos/src/PartiallyContractedGraph.hpp: N2Edge, edges, out_edges, get(edge_index)"]}
{"id": "C53", "title": "Variable numbering is a bijection", "statement": "Variable ids correspond one to one to (agent, from, to) triples, the LP has a column for every variable, and the optional maximum variable does not clash with any of them.", "quantifier": "all numbers of agents and nodes, all pairs of variables", "why_tests_cant": "two variables may collide only for one combination of agents and nodes; there are infinitely many sizes", "anchors": ["tsplp/src/MtspModel.cpp: MtspModel::MtspModel, CalculateRecursivelyFixableVariables", "tsplp/src/Model.cpp: Model::Model, AddVariable, GetBinaryVariables"]}
{"id": "C54", "title": "Branching variable selection", "statement": "A branching variable is returned exactly when some binary variable is at least 1e-10 away from both 0 and 1 inside [0,1], and then it is a fractional variable closest to 1/2 up to 1e-10.", "quantifier": "all LP points", "why_tests_cant": "which variable is chosen depends on the whole pattern of fractional values, ties included", "anchors": ["tsplp/src/MtspModel.cpp: FindFractionalVariable"]}
{"id": "C55", "title": "Input size check", "statement": "The C function rejects every call with more than N/2 agents.", "quantifier": "all 64-bit arguments", "why_tests_cant": "needs 64-bit wrap-around", "anchors": ["mtsp-vrp-c/src/mtsp-vrp-c.cpp: solve_mtsp_vrp"]}
{"id": "C56", "title": "Processing order is a topological order", "statement": "For every accepted instance the heuristic's processing order lists every node once and every node after all its dependency predecessors; the sort never fails.", "quantifier": "all accepted instances", "why_tests_cant": "the order depends on the dependency graph, whose shapes are unbounded", "anchors": ["tsplp/src/Heuristics.cpp: NearestInsertionSum, NearestInsertionMax (topological_sort)"]}
{"id": "C57", "title": "Costs refer to the input weights", "statement": "The objective of a feasible solution of the preprocessed instance equals the objective of the mapped-back paths under the weights the caller gave (dependency flags counting 0).", "quantifier": "all accepted instances, all feasible solutions, both modes", "why_tests_cant": "all sharing patterns of depots", "anchors": ["tsplp/src/WeightManager.cpp: WeightManager::WeightManager, TransformPathsBack"]}
{"id": "C58", "title": "Heuristic solutions found during the search are backed", "statement": "Whenever the heuristics find a solution during the search, the submitted paths form one path per agent from its start to its end covering every node once, and the submitted upper bound is exactly their objective.", "quantifier": "all accepted instances, all fractional LP points, both modes, any deadline", "why_tests_cant": "heuristics run on the fractional point of any node of any search tree", "anchors": ["tsplp/src/MtspModel.cpp: ExploitFractionalSolution", "tsplp/src/Heuristics.cpp: ExploitFractionalSolution"]}
{"id": "C59", "title": "Connectivity and precedence cuts make progress", "statement": "Every connectivity or precedence cut that is added is violated by the LP point it was derived from, so the same point cannot come back.", "quantifier": "all accepted instances, all LP points", "why_tests_cant": "a cut that is not violated makes the search loop on one node", "anchors": ["tsplp/src/SeparationAlgorithms.cpp: Ucut, Pi, Sigma, PiSigma", "tsplp/src/SupportGraphs.cpp: FindMinCut"]}
{"id": "C60", "title": "Comb cuts make progress", "statement": "Every 2-matching cut that is added is violated by the LP point it was derived from.", "quantifier": "all accepted instances, all LP points, all reported partitions", "why_tests_cant": "needs particular fractional points", "anchors": ["tsplp/src/SeparationAlgorithms.cpp: TwoMatching"]}
{"id": "C61", "title": "The Gomory-Hu construction stays inside its tables", "statement": "In every iteration the vertex to split has at least two nodes, there is room for another tree vertex, the contracted graph has at most N vertices and every node a position in it, all neighbouring bags are nonempty, and all weights looked up are in the table.", "quantifier": "all graphs, all iterations, all max-flow results consistent with their contract", "why_tests_cant": "out-of-bounds accesses need particular split sequences", "anchors": ["graph-algos/src/GomoryHuTree.cpp: CreateGomoryHuTree", "graph-algos/src/PartiallyContractedGraph.hpp: Reset"]}
{"id": "C62", "title": "A complete search finds an optimum", "statement": "If all workers finish and the deadline was never noticed, the stored paths are a feasible solution of minimum cost, whether or not the lower bound has been raised to it.", "quantifier": "all instances, all interleavings of any number of workers, all LP answers", "why_tests_cant": "optimality is a statement about all solutions, all schedules", "anchors": ["tsplp/src/MtspModel.cpp: BranchAndCutSolve"]}
{"id": "C63", "title": "Without a deadline the solver finishes SOLVED", "statement": "If a solution exists, the deadline is never noticed and the LP solver answers every LP correctly, a call that ends returns SOLVED.", "quantifier": "all accepted instances, all interleavings, all LP answers", "why_tests_cant": "it is about every search tree and every schedule, and about not running for ever", "anchors": ["tsplp/src/MtspModel.cpp: BranchAndCutSolve", "mtsp-vrp-c/src/mtsp-vrp-c.cpp: solve_mtsp_vrp"]}
{"id": "C64", "title": "End-to-end optimality", "statement": "If the C function returns SOLVED, the paths in the output buffer visit every node exactly once, respect all dependencies, and no admissible choice of paths is cheaper under the caller's weights; in any case the written bounds enclose the optimum.", "quantifier": "all arguments, all interleavings, all LP answers, all deadlines", "why_tests_cant": "optimality is a statement about all solutions of all instances", "anchors": ["mtsp-vrp-c/src/mtsp-vrp-c.cpp: solve_mtsp_vrp", "tsplp/src/MtspModel.cpp: BranchAndCutSolve, MtspModel::MtspModel", "tsplp/src/WeightManager.cpp: WeightManager, TransformPathsBack"]}
{"id": "C65", "title": "Assertions never fail", "statement": "No assertion in the modelled code fails, for any accepted input, schedule and deadline.", "quantifier": "all accepted inputs, all schedules, every point at which the deadline may fall", "why_tests_cant": "the assertions are compiled out of release builds and state facts about all executions", "anchors": ["tsplp/src/MtspModel.cpp: MtspModel, CreateInitialResult", "tsplp/src/Heuristics.cpp: TwoOptPaths", "tsplp/src/WeightManager.cpp: WeightManager"]}
{"id": "C66", "title": "Python wrapper returns the true lengths", "statement": "If no node is a depot of two agents, the lengths returned by the Python function are the lengths of the returned paths under the caller's weights, the way back to the depot included.", "quantifier": "all instances, all calls that succeed", "why_tests_cant": "closed and open tours are treated differently", "anchors": ["python/mtsp_vrp.py: solve_mtsp_vrp"]}
{"id": "C67", "title": "The search ends", "statement": "If none of the workers is passed over forever by the scheduler, the search ends without any deadline: all workers leave their loops, or an exception ends the call after the LP solver reported an error.", "quantifier": "all accepted instances, all fair interleavings of any number of workers, all LP answers", "why_tests_cant": "termination is a statement about infinite executions", "anchors": ["tsplp/src/MtspModel.cpp: BranchAndCutSolve", "tsplp/src/SeparationAlgorithms.cpp: TwoMatching, Ucut, Pi, Sigma, PiSigma"]}
{"id": "C68", "title": "The deadline is honoured", "statement": "Once the deadline has passed, the search ends after finitely many further steps, whatever the workers were doing, provided none of them is passed over forever by the scheduler.", "quantifier": "all accepted instances, all fair interleavings of any number of workers, every point at which the deadline may fall", "why_tests_cant": "needs every state of every worker at the deadline", "anchors": ["tsplp/src/MtspModel.cpp: BranchAndCutSolve", "tsplp/src/BranchAndCutQueue.cpp: Pop, ClearAll"]}
{"id": "C69", "title": "The LP solver is given the intended LP", "statement": "After construction, and at every moment of the search for every worker, the problem stored in the LP solver is the intended one: same feasible points and same objective as the relaxation with the cuts read so far and the variables of the current node fixed; none of the calls that build it fails. An answer that is right about the stored problem is right about the intended one.", "quantifier": "all accepted instances within the int limits, all interleavings, all LP answers, all batches of constraints", "why_tests_cant": "the compressed row arrays, the objective offset and the extra columns are invisible from outside", "anchors": ["tsplp/src/Model.cpp: SetObjective, AddConstraints, AddVariable, Solve", "tsplp/src/MtspModel.cpp: MtspModel::MtspModel, BranchAndCutSolve", "tsplp/src/ConstraintDeque.cpp: PopToModel"]}
{"id": "C70", "title": "Setting an objective replaces the previous one", "statement": "After SetObjective the objective of the model is the given expression.", "quantifier": "all models, all expressions, all histories of calls", "why_tests_cant": "depends on the history of earlier calls", "anchors": ["tsplp/src/Model.cpp: SetObjective"]}
{"id": "C71", "title": "The callback sees the LP solution", "statement": "Whenever the fractional callback is called, it is given nonnegative values for every agent and ordered pair of input nodes; at a node that is no depot they sum up to 1 in each direction and every agent enters and leaves it equally, at a depot to the number of agents starting or ending there; for an integral LP solution the values are the numbers of times the agent's path uses the arc, the arc back to the next agent's start included.", "quantifier": "all accepted instances, all interleavings, all LP answers", "why_tests_cant": "all LP solutions, all sharing patterns of depots", "anchors": ["tsplp/src/MtspModel.cpp: BranchAndCutSolve (fractionalCallback)", "tsplp/src/WeightManager.cpp: TransformTensorBack", "mtsp-vrp-c/src/mtsp-vrp-c.cpp: solve_mtsp_vrp (callback)"]}
{"id": "C72", "title": "Noise of the LP solver does no harm", "statement": "If every number the LP solver returns is within the solver's own tolerance of an exact optimum, the reported lower bound is valid and a search that ends without a deadline has found an optimum.", "quantifier": "all accepted instances, all interleavings, all LP answers within the tolerance", "why_tests_cant": "tests see the noise of one LP solver on a few instances", "anchors": ["tsplp/src/MtspModel.cpp: BranchAndCutSolve (std::ceil(... - 1.e-10))", "tsplp/src/Model.cpp: Model::Solve"]}
{"id": "C73", "title": "Costs are computed exactly in floating point", "statement": "On every accepted input with integer weights below 2^31 and at most 2^19 nodes, rounding of the floating-point operations never shows in a result of the heuristics: path lengths and objectives are exact, the initial solution and its bound are the same as with exact arithmetic, and every solution submitted during the search, whose construction uses rounded weights, comes with exactly its cost.", "quantifier": "all accepted inputs within the stated sizes, all LP points, all rounding functions that keep integers up to 2^53 and are monotone", "why_tests_cant": "rounding depends on the magnitudes of all intermediate sums", "anchors": ["tsplp/src/Heuristics.cpp: CalculatePathLength, CalculateObjective, NearestInsertionSum, NearestInsertionMax, TwoOptPaths, ExploitFractionalSolution", "tsplp/src/MtspModel.cpp: CreateInitialResult, ExploitFractionalSolution"]}
{"id": "C74", "title": "Gomory-Hu cuts answer every pair", "statement": "If the callback never asks to stop, then for any two different nodes one of the reported cuts is a minimum cut between them, although only N-1 cuts are reported.", "quantifier": "all graphs with nonnegative weights, all pairs of nodes, all max-flow results consistent with their contract", "why_tests_cant": "quantifies over all cuts of all graphs", "anchors": ["graph-algos/src/GomoryHuTree.cpp: CreateGomoryHuTree"]}
{"id": "C75", "title": "2-matching separation is exact", "statement": "At every point of the LP relaxation, the 2-matching separation reports a constraint if and only if the point violates some 2-matching inequality (a handle with an odd number of teeth) by more than the tolerance of 1e-10; if it reports nothing, all of them hold up to the tolerance.", "quantifier": "all accepted instances, all LP points, all handles and sets of teeth", "why_tests_cant": "exponentially many inequalities; the algorithm looks at N-1 handles only", "anchors": ["tsplp/src/SeparationAlgorithms.cpp: TwoMatching", "graph-algos/src/GomoryHuTree.cpp: CreateGomoryHuTree"]}
{"id": "C76", "title": "Connectivity and precedence separation are exact", "statement": "At every nonnegative point, each of the separations for connectivity, predecessors, successors and single dependencies reports a cut if and only if the point violates some inequality of its kind by more than the tolerance of 1e-10.", "quantifier": "all accepted instances, all nonnegative points, all node sets", "why_tests_cant": "exponentially many inequalities", "anchors": ["tsplp/src/SeparationAlgorithms.cpp: Ucut, Pi, Sigma, PiSigma", "tsplp/src/SupportGraphs.cpp: FindMinCut"]}
{"id": "C77", "title": "Results do not depend on how they were computed", "statement": "Two calls for the same instance (same nodes, weights, depots and objective) that differ in the number of threads, the schedule, the time limit or the LP answers never contradict each other: the lower bound of one is not above the upper bound of the other, and if both return SOLVED they report the same cost.", "quantifier": "all instances, all pairs of calls, all interleavings and LP answers of both", "why_tests_cant": "a statement about pairs of executions", "anchors": ["mtsp-vrp-c/src/mtsp-vrp-c.cpp: solve_mtsp_vrp", "tsplp/src/MtspModel.cpp: BranchAndCutSolve"]}
{"id": "C78", "title": "Equivalent instances have the same cost", "statement": "Renumbering the nodes, reordering the agents or reversing all arcs (with starts and ends and dependencies exchanged accordingly) does not change the cost of a SOLVED call, and lowering weights does not increase it.", "quantifier": "all instances, all renumberings, all orders of agents, all pairs of calls", "why_tests_cant": "a statement about pairs of executions on pairs of instances", "anchors": ["mtsp-vrp-c/src/mtsp-vrp-c.cpp: solve_mtsp_vrp", "tsplp/src/MtspModel.cpp: BranchAndCutSolve", "tsplp/src/WeightManager.cpp: WeightManager"]}
{"id": "C79", "title": "The Python function solves the caller's instance", "statement": "The Python function hands the C function the caller's starts, ends, weights and objective unchanged, or raises an error; it returns complete paths with true lengths that are optimal if the C function returned SOLVED; and for every error the exception names its reason.", "quantifier": "all Python arguments (any numbers as weights, any shapes), all calls", "why_tests_cant": "the conversion to int arrays is silent", "anchors": ["python/mtsp_vrp.py: solve_mtsp_vrp"]}
{"id": "C80", "title": "Lengths and bound of the Python function agree", "statement": "The lengths returned by the Python function add up to the returned upper bound (objective sum), or the largest of them is the upper bound (objective max).", "quantifier": "all instances, all calls that succeed", "why_tests_cant": "lengths and bounds are computed from different matrices", "anchors": ["python/mtsp_vrp.py: solve_mtsp_vrp", "tsplp/src/MtspModel.cpp: CalculateObjective"]}
{"id": "C81", "title": "No worker sleeps next to queued nodes", "statement": "Whenever nodes are queued, the queue is not cleared and a worker is blocked in Pop, some other worker is about to notify it or on its way to the queue.", "quantifier": "all interleavings of any number of workers, including spurious wake-ups", "why_tests_cant": "needs particular interleavings; the effect is only a loss of speed", "anchors": ["tsplp/src/BranchAndCutQueue.cpp: Pop, Push, PushResult, PushBranch, NotifyNodeDone"]}
{"id": "C82", "title": "The improvement heuristic ends at a local optimum", "statement": "If the improvement heuristic is not cut off by the deadline, its result cannot be improved by exchanging two inner nodes, on the same path or on different paths, in any way that respects the dependencies: every such exchange leaves the objective at least as large.", "quantifier": "all weights, both objectives, all dependencies, all starting paths that keep dependent nodes together, all exchanges", "why_tests_cant": "a statement about all exchanges at the end of a loop of unknown length", "anchors": ["tsplp/src/Heuristics.cpp: TwoOptPaths, PathsInfo"]}
{"id": "C83", "title": "The heuristics never access outside of their data", "statement": "For every accepted instance whose weights are small enough that no insertion costs DBL_MAX or more, every deadline and (during the search) every fractional solution, the construction and the improvement heuristic never read or write a path, a length, a weight, a component or a dependency outside of its container, never insert outside of a path and never compute size() - 1 of an empty path. With weights of DBL_MAX the construction does.", "quantifier": "all accepted instances, all weights, both objectives, all deadlines, all fractional solutions; for the improvement all sets of non-empty paths", "why_tests_cant": "an access outside of a vector may go unnoticed in any number of tests", "anchors": ["tsplp/src/Heuristics.cpp: NearestInsertion, ExploitFractionalSolution, TwoOptPaths, CalculateObjective"]}
{"id": "C84", "title": "The initial solution does not depend on a sufficient time limit", "statement": "For every accepted instance there is an amount of time from which on the initial result (bound, paths or error) is always the same.", "quantifier": "all accepted instances, both objectives, all deadlines", "why_tests_cant": "quantifies over all deadlines", "anchors": ["tsplp/src/MtspModel.cpp: CreateInitialResult", "tsplp/src/Heuristics.cpp: NearestInsertion, TwoOptPaths"]}
{"id": "C85", "title": "Cutting planes are valid in floating point", "statement": "However the sums, differences and constants in the separation algorithms are rounded, and whatever cuts the minimum cut algorithms find with their rounded numbers: no feasible solution violates a connectivity, precedence or comb constraint that is added. The Gomory-Hu construction with rounded capacities still ends after at most N - 1 iterations and reports partitions.", "quantifier": "all monotone rounding functions that keep small integers, all LP solutions (feasible or not), all instances, all minimum cut algorithms whose answers are cuts", "why_tests_cant": "rounding errors need particular fractional points; an invalid cut silently removes the optimum", "anchors": ["tsplp/src/SeparationAlgorithms.cpp: Ucut, Pi, Sigma, PiSigma, TwoMatching", "tsplp/src/SupportGraphs.cpp: FindMinCut", "graph-algos/src/GomoryHuTree.cpp: CreateGomoryHuTree"]}
{"id": "C86", "title": "Waiting for work is harmless", "statement": "A worker that finds the queue empty sleeps until it is notified. This changes nothing about what the search can find: exactly the same states are reached as if it looked again and again. A sleeping worker owns no node; while one sleeps, another one runs or is about to wake it; when there will be no more work, somebody is about to wake all of them; and once the deadline has passed every sleeping worker is woken up, even if there are no spurious wake-ups.", "quantifier": "all accepted instances, all numbers of workers, all interleavings of their critical sections and notifications, all choices of the worker that notify_one wakes, all LP answers", "why_tests_cant": "lost wake-ups need particular interleavings of the search, and show as a program that hangs", "anchors": ["tsplp/src/BranchAndCutQueue.cpp: Pop, ClearAll, Push, PushResult, PushBranch, NotifyNodeDone", "tsplp/src/MtspModel.cpp: BranchAndCutSolve"]}
{"id": "C87", "title": "Locking makes the shared objects safe", "statement": "While the search is running, at no time do two threads access the queue, the result or the pool of constraints at the same time, no thread waits for a mutex whose owner cannot go on, and however the single statements of the threads are interleaved, the search reaches exactly the states it would reach if every call of a member function were one indivisible step. A thread that asks for the bounds in the meantime is told the bounds of one state of the search, the lower never above the upper. (Reading the paths in the meantime is not safe: that function takes no lock.)", "quantifier": "all accepted instances, all numbers of workers and observers, all interleavings of single statements, all LP answers and clock readings", "why_tests_cant": "data races and torn reads need particular interleavings of single statements", "anchors": ["tsplp/src/BranchAndCutQueue.cpp: all member functions", "tsplp/src/MtspResult.cpp: all member functions", "tsplp/include/MtspResult.hpp: GetPaths", "tsplp/src/ConstraintDeque.cpp: Push, PopToModel", "tsplp/src/MtspModel.cpp: BranchAndCutSolve"]}
{"id": "C88", "title": "A call comes back", "statement": "Whatever goes wrong while solving, the C function returns to its caller with a return code; in particular a failure of the LP solver is reported as an internal error.", "quantifier": "all accepted arguments, all numbers of workers, all schedules, all LP answers including failures", "why_tests_cant": "LP solvers fail on rare numerical conditions that cannot be provoked at will", "anchors": ["mtsp-vrp-c/src/mtsp-vrp-c.cpp: solve_mtsp_vrp", "tsplp/src/MtspModel.cpp: BranchAndCutSolve"]}
{"id": "C89", "title": "Separation works in floating point", "statement": "With the sums and constants of the separation rounded to double precision and minimum cuts off by at most 1e-11: whenever a point violates a connectivity or precedence inequality by more than 2e-10, a cut is found; every cut that is found is violated by the point; so integral LP answers (up to 1e-10) for which nothing is found are feasible solutions, and at feasible solutions nothing is found.", "quantifier": "all roundings with relative error 2^-53, all accepted instances, all nonnegative LP points whose arcs are used at most 1.5 times, all minimum cut algorithms that are this accurate", "why_tests_cant": "rounding errors need particular fractional points", "anchors": ["tsplp/src/SeparationAlgorithms.cpp: Ucut, Pi, Sigma, PiSigma", "tsplp/src/SupportGraphs.cpp: FindMinCut", "tsplp/src/MtspModel.cpp: BranchAndCutSolve"]}
{"id": "C90", "title": "The search is right in floating point", "statement": "With every addition, subtraction, multiplication and decimal constant of the search rounded to double precision, and an LP solver as accurate as double precision allows, the reported lower bound is a lower bound on the cost of every feasible solution, bounds that meet belong to an optimum, and a search that ends without a deadline has found one; the reported paths always cost what is reported.", "quantifier": "all accepted weights, all numbers of workers, all schedules, all orders in which the terms of the objective function are added, all LP answers up to their noise", "why_tests_cant": "the weights, fractional values and orders of summation for which a rounding error exceeds the tolerance are rare and depend on the machine", "anchors": ["tsplp/src/MtspModel.cpp: BranchAndCutSolve, FindFractionalVariable, CreatePathsFromVariables", "tsplp/src/LinearVariableComposition.cpp: Evaluate"]}
{"id": "C91", "title": "The 2-matching separation stays inside its arrays", "statement": "Separating 2-matching cuts never reads or writes outside of the arrays it works on (edge tables, parities, spans of nodes that are partitioned in place, capacities and colours of the contracted graph), never takes the first node of an empty span, and never asks for a flow from a node to itself; and working in place, with stale entries of earlier iterations in the arrays, does not change the cuts that are reported.", "quantifier": "all numbers of agents and nodes, all LP solutions, all minimum cuts a flow algorithm may choose, all orders std::partition may leave the nodes in, all roundings", "why_tests_cant": "which array cells are touched depends on the sequence of minimum cuts, which depends on fractional LP solutions; an access outside usually goes unnoticed", "anchors": ["tsplp/src/SeparationAlgorithms.cpp: TwoMatching", "graph-algos/src/GomoryHuTree.cpp: CreateGomoryHuTree", "graph-algos/src/PartiallyContractedGraph.hpp: PartiallyContractedGraph"]}
{"id": "C92", "title": "A dependency error means that there is no solution", "statement": "For accepted arguments, the C function returns one of the codes for dependency errors exactly if no assignment of paths (each node that is nobody's start or end on exactly one path, each path from its agent's start to its end) visits, for each dependency, the first node before the second on some path.", "quantifier": "all weight matrices with dependencies, all starts and ends, all objectives, all executions", "why_tests_cant": "whether a solution exists depends on how dependencies combine with each other and with depots, on arbitrarily many nodes and agents", "anchors": ["mtsp-vrp-c/src/mtsp-vrp-c.cpp: solve_mtsp_vrp", "tsplp/src/WeightManager.cpp: WeightManager::WeightManager", "tsplp/src/DependencyHelpers.cpp: DependencyGraph", "tsplp/src/Heuristics.cpp: NearestInsertion"]}
{"id": "C93", "title": "The benchmark driver does not reject correct results", "statement": "For one agent and an instance whose optimum is known, the benchmark driver never stops with a complaint about the bounds it got, and what it records is consistent: the lower bound is not above the upper bound, the gap is not negative, and it is 0 exactly if the bounds agree.", "quantifier": "all square matrices of weights and dependencies, both objectives, all executions of the solver", "why_tests_cant": "the driver compares with one number per instance on a handful of files; whether the comparison can go wrong depends on every schedule and every instance", "anchors": ["python/tsplib/tsplib.py: main", "python/mtsp_vrp.py: solve_mtsp_vrp", "mtsp-vrp-c/src/mtsp-vrp-c.cpp: solve_mtsp_vrp"]}
{"id": "C94", "title": "Callback values cost no more than any solution", "statement": "While the search has not fixed any variable yet, the values given to the fractional callback, multiplied by the caller's weights and less one artificial way per agent from its end to the next agent's start, cost at most what any solution costs (their sum for objective sum, each agent's for objective max), but for the LP solver's noise of 1e-10 per value. The cost that the demo annotates is at most that, and equals it if the artificial ways cost nothing.", "quantifier": "every accepted instance with or without dependencies, both objectives, every interleaving of the workers, all LP answers, every solution of the instance", "why_tests_cant": "The values are one of infinitely many fractional points, and the bound is about all solutions of the instance, of which a test can try only a few; a wrong weight on a copied depot shows only where the LP uses it.", "anchors": ["tsplp/src/MtspModel.cpp:BranchAndCutSolve", "tsplp/src/WeightManager.cpp:TransformTensorBack", "python/demos/progress_visualization.py:draw_fractional_solution"]}
{"id": "C95", "title": "What the solver knows never gets worse", "statement": "While the search is running, the cost of the best solution never increases, other paths are stored only together with a smaller cost, the lower bound decreases only if a solution with a smaller cost has been found, and then not below that cost, and a deadline that has been noticed is not forgotten. In particular the result of a call is never worse than what the constructor's heuristic left.", "quantifier": "all inputs, all numbers of workers, all interleavings, all LP answers, heuristic results and clock readings, all pairs of an earlier and a later moment", "why_tests_cant": "a bound that moves back for a moment is seen only if somebody looks at that moment, and depends on the interleaving of the workers", "anchors": ["tsplp/src/MtspResult.cpp: UpdateUpperBound, UpdateLowerBound, SetTimeoutHit", "tsplp/src/MtspModel.cpp: BranchAndCutSolve"]}
