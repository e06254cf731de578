# Formal model of sebrockm/mtsp-vrp in Lean 4 — design

Source: `/repo` (C++20, read as text, never built here). Lean project: `/verif/lean`.
Properties: `properties.jsonl` (C01…), generated from `tools/gen_properties.py`.
Status per property: `MANIFEST.json`. Mutation log: `seeded/LOG.jsonl`.

## 1. Layout

| directory | content |
|---|---|
| `lean/Verif/Model/*.lean` | executable model, one Lean definition per C++ function, each citing file and lines |
| `lean/Verif/Spec/*.lean`  | small independent specifications (feasible solution, path cost, reachability, minimum cut, …) that do not mention model helpers |
| `lean/Verif/Proof/*.lean` | helper lemmas, invariants |
| `lean/Verif/Props/*.lean` | the property theorems `Cnn_…`, their non-vacuity examples and the refutations |

## 2. Modelling decisions

* **Numbers.** `double` is modelled by exact rationals (`ℚ`); `DBL_MAX` by the rational `dblMax`.
  NaN and infinities are not modelled. Rounding is modelled in the heuristics (`Model/Doubles.lean`: every `+`, `-`, `*` is
  followed by a rounding function `fl`, of which only `Rounding fl` in `Spec/Doubles.lean` is assumed; `roundDouble`
  is proved to be one): the heuristic called in the search is the rounded one (`BEnv.fl`), and the rounded constructor equals the exact one
  (C73). The separation algorithms are modelled twice: exactly (`Model/Cuts.lean`, `Model/GomoryHu.lean`; C35, C38–C40, C50, C51, C59–C61, C74–C76) and with every
  operation rounded (`Model/CutsRounded.lean`; C85, C89); the search calls the rounded ones, with minimum cut algorithms that are
  themselves off by rounding errors. The rest of the search computes exactly in `Model/BranchAndCut.lean` (but for the choice of the branching
  variable) and with rounding in `Model/SearchRounded.lean` (objective value, its rounding to a bound, reduced cost test, tolerances; C90), which is proved to
  simulate it for small weights. `size_t` is `Nat`, except where wrap-around is the
  property (C55, size check of the C API), where arithmetic is taken modulo 2^64 (`wrap64`). The products
  `A * N * N` of the variable numbering are not wrapped: `Model::Model` refuses more than INT_MAX variables,
  and an `A * N * N` beyond 2^64 would need more memory than there is.
* **Errors.** Every function that can throw returns `Except Err α`; undefined behaviour (indexing past
  the end of a vector, `SIZE_MAX` index) is the distinct outcome `Err.ub`. `assert`s are not executed
  (release build), their truth is proved where a property needs it.
* **Clock.** `steady_clock` is monotone, so a run is determined by how many deadline checks still
  succeed; the clock is a natural number of ticks, every check consumes one.
* **Locks.** Every member function of the queue, of the constraint deque and of the result object runs
  under its own mutex, so its critical section is one atomic step; a concurrent history is an arbitrary
  sequence of such steps, and theorems quantify over all sequences. The condition variable of the queue
  is modelled separately (waiters, notifications, spurious wake-ups), see C12, and together with the search, see C86.
  That one critical section may be taken as one step is itself proved, from a model in which threads interleave statement by
  statement (C87).
* **External libraries.** CLP (LP solver), boost max-flow / Stoer–Wagner / transitive closure /
  connected components, xtensor, std::… Either modelled executably (DFS, heap operations, partition,
  connected components, transitive closure) or as a *parameter with a contract*: the LP solver's answer
  and the cut computed by max-flow/min-cut are arbitrary, and theorems hold for *every* answer (C38–C40),
  or for every answer that meets the stated contract (C35, C41–C43, C50, C51, C59–C64). The contracts:
  `GlobalCut.Correct` (Stoer–Wagner returns a proper partition of minimum weight), `MaxFlow.Correct`
  (Boykov–Kolmogorov returns the value of a minimum cut and its black side) and `CutStream.Correct` in
  `Spec/Cuts.lean`; their counterparts for computations with rounded numbers `GlobalCut.Near`, `MaxFlow.Near` (the answers are
  cuts, sizes and minimality hold up to 1e-11 for weights up to 4) in `Spec/CutsNear.lean` and `CutStream.Proper` (the answers are partitions, sizes not negative) in
  `Spec/CutsRounded.lean`, which are what the search is assumed to get (`BEnv.Good`, `Lib.Correct`); `LPAnswer.Correct` in `Spec/LPSolver.lean` (an `optimal` answer is, up to the noise described below, an optimal
  point of the LP at hand together with valid reduced costs, an `infeasible` answer means that there is no point, `timeout`
  and the error answers may come at any time); `HeapImpl` (the C++ contract of `std::push_heap`/`pop_heap`,
  met by the modelled libstdc++ algorithms); `Partition` (`std::partition`). The Gomory–Hu construction itself
  is modelled, so the `CutStream` contract is discharged for it (`ghStream_correct`, `ghStreamF_proper`, `twoMatchingGF_stream`). The LP solver is thereby
  idealised, but need not be exact: the values of the binary variables may be off by 1e-10 (rows may be violated
  accordingly), the objective value and the reduced costs by a quarter of that, as long as no comparison of the code with
  its tolerance 1e-10 comes out differently than it would at the exact optimum (`LPProb.Approx`; `LPProb.Exact.correct`:
  an exact solver meets the contract). CLP's default tolerances are larger (1e-7), so it is an assumption that the
  noise stays that small; finding 14 (C72) is what happens otherwise. The theorems about infinite executions (C67, and the
  fair-run part of C63) assume in addition that the answers satisfy the rows that are cuts (`Inp.OnRows`), as otherwise a
  cut could be found again and again (the contract is stated about the data stored in CLP as well, and C69
  shows that this data is the LP of the search model). `setMaximumSeconds` is subsumed by `timeout` answers at any time:
  CLP measures CPU time of the process and ignores negative limits, so an LP may time out before the deadline with
  several threads and may run without limit after it. Tolerances written in the repository's code (1e-10) are kept.
* **Threads.** `Model/BranchAndCut.lean`: one step of a worker is one critical section of a shared object
  together with the local computation before it. Schedules, deadlines and LP answers are arbitrary inputs of
  every step. An exception in a worker of a multi-threaded search is `std::terminate`.

## 3. Trusted base

* Lean 4.33.0 kernel; Mathlib 4.33.0-compatible modules imported one by one.
* Axioms: at most `propext`, `Classical.choice`, `Quot.sound` (checked by `vcheck`). No axioms of our own,
  no compiled-evaluation tactics.
* The reading of the C++ text: each definition cites the lines it models; simplifications are named there.
* Contracts of external libraries as listed in section 2.

## 4. Properties: what is modelled and how it is proved

| id | model | proof |
|---|---|---|
| C01, C02 | `LinearVariableComposition`, `LinearConstraint` as association list + constant, operators as in the code | evaluation homomorphism; no-duplicate-key invariant; induction over expressions |
| C03–C05 | `MtspResult` as state machine, all op sequences | closed form by induction over the history; permutation invariance |
| C06–C10 | `BranchAndCutQueue` with the libstdc++ binary-heap algorithms on a list, worked-on vector, count, cleared flag | heap invariant preserved by sift-up/sift-down; reachable-state invariant by induction over ops; multiset bookkeeping |
| C11 | `PushBranch` node construction | case split on the branching variable + C37 |
| C12 | queue + condition variable + worker program counters as a transition system | invariant on (waiters, pending notifications, work), progress from the invariant |
| C13 | `ConstraintDeque` as state machine with two critical sections in PopToModel | invariant: dropped ++ deque = pushed, per-thread received = take(dropped + read) |
| C14, C56 | depth-first search of Boost with colours | DFS colour invariants; back edge iff cycle; reverse finish order topological |
| C15, C16 | `CreateTransitiveDependencies`, `DependencyGraph` | closure = `TransGen`; list membership |
| C17–C20 | `WeightManager` constructor | invariant over the agent loop (rows/columns appended) |
| C21, C22 | `TransformPathsBack`, `TransformTensorBack` | pointwise; sum over fibres |
| C23 | `CalculatePathLength`, `CalculateObjective` | induction |
| C24–C27 | `NearestInsertionSum/Max` including topological sort, components, candidate scan | invariant over processed nodes; C26 is false of the code: refuted, partial theorem. The two nodes of a dependency always end on the same path (`Grouped`), so dependencies at starts and ends (`DepotDeps`, `OnlyDepotDeps`) are always respected; C32, C43, C62–C64, C79 use this |
| C28–C31 | `TwoOptPaths`, `PathsInfo` with all loops | invariant over the loop state; exact cost delta of a swap; termination by finiteness of the permutations; C30 refuted, partial theorem |
| C32, C48 | `CreateInitialResult` with clock | C24–C29 combined; timeout case refuted |
| C33–C36 | constraint builder of the `MtspModel` constructor, objective, `CreatePathsFromVariables` | evaluate every constraint family at the 0/1 point; converse by following successors |
| C37 | `CalculateRecursivelyFixableVariables` | case analysis; artificial arcs refuted, partial theorem |
| C38–C40 | constraints emitted by the separators for an arbitrary cut | crossing argument on the cyclic tour; parity (blossom) argument |
| C41 | reduced-cost test | LP duality contract + integrality |
| C42–C45 | worker loop as per-thread transition system over queue, result, deque, with LP oracle | global invariant over all interleavings; timeout variant refuted |
| C46, C47, C55 | C API wrapper `solve_mtsp_vrp` | case analysis, buffer layout by induction; wrap-around modulo 2^64; C55 refuted from 2^63 agents on |
| C49, C66 | Python slicing and lengths | layout arithmetic; refuted for shared depots, partial; lengths by induction over the path |
| C50–C52, C61 | Gomory–Hu construction, dense graph | partition invariant; max-flow contract; uncrossing (submodularity); index bounds from the invariant |
| C53, C54 | variable numbering, columns, `FindFractionalVariable` | arithmetic; fold invariant |
| C57, C58 | costs of solutions, `ExploitFractionalSolution` | copies of depots have the weights of their originals; C24–C29 with arbitrary heuristic weights |
| C59, C60 | separators | a reported cut is violated by the LP point (sum over the cut edges); C60 refuted for an even number of heavy edges |
| C62–C64 | worker loop, C API | global invariant of C42/C43 at the final state; existence of an optimal solution; refutations by explicit runs evaluated in the kernel; C63 positive part: second invariant - some node that still admits a solution as cheap as the upper bound, or a result node with a bound not below it, is in the queue or in a worker's hands until the bounds meet (`Proof/Solved.lean`) |
| C65 | all `assert`s | each assertion's condition at its program point, from the invariants above |
| C67, C68 | infinite fair executions (`Spec/Termination.lean`) | lexicographic measure: cuts not yet known to a worker (finitely many possible cuts), unfixed variables in the tree, program counters; waiting steps excluded by fairness and the queue invariant; after the deadline a counter of the remaining steps per worker. C67 refuted by a periodic execution |
| C69, C70 | `Model::SetObjective/AddConstraints/Solve` on the data CLP stores (`Model/Clp.lean`), the calls each worker makes to its copy (`Model/ClpSearch.lean`) | compressed rows decode to the given constraints; simulation: replaying a worker's calls keeps the stored problem equal to the LP the search model uses; unused columns are harmless; C70 refuted for a second call |
| C72 | the search with an LP solver of noise ε (`Spec/Noise.lean`) | small noise meets the contract; refutation by an explicit run |
| C73 | the heuristics with rounding (`Model/Doubles.lean`) | all intermediate numbers are integers below 2^53, so the rounded functions equal the exact ones; in the search only covers and objectives matter |
| C74 | Gomory–Hu construction | every tree edge keeps a call whose components are its two sides and whose size is at most every cut between two nodes in the bags at its ends (uncrossing); hence every node set is, up to complement, a symmetric difference of calls not bigger than its own cut; pick the smallest separating call |
| C75 | `TwoMatching` | the parity of heavy edges in a cut is linear modulo 2, so one of the spanning calls is odd, or even and containing an edge on which the teeth differ from the heavy edges; the scan finds the cheapest change of one edge |
| C76 | `Ucut`, `Pi`, `Sigma`, `PiSigma` | minimality of the minimum cuts |
| C77 | C API calls, pairs of executions | both C64 bounds refer to the same set of solutions |
| C78 | C API calls, pairs of instances | solutions are mapped to solutions of no larger cost (reversal, renumbering, permutation of agents, pointwise smaller weights) |
| C79 | `Model/Python.lean` (conversion to int32 arrays, contiguous memory, mode string, messages) | row-major indexing; refuted with literal arguments |
| C80 | `pyLength` and the C API | the flag of a dependency lies on no arc of an admissible path, except on the way home of a round trip |
| C81 | `CRun` (condition variable protocol), `OnceRun` (at most one push for each node) | invariants for two and for three workers; a run of four workers that breaks it |
| C82 | `twoOpt` | a round that reports no improvement has changed nothing, so every exchange it considered has no gain; the exchanges it skips break a dependency or leave the longest path alone |
| C83 | the heuristics once more, every access checked (`Model/Checked.lean`) | the checked functions equal the unchecked ones on the states that the loop invariants of C24 and C28 allow |
| C84 | `createInitialResult` | more deadline checks than nodes do not change the construction; C31 bounds the improvement |
| C85 | the separation algorithms with rounding (`Model/CutsRounded.lean`) | the constraints depend on the numbers only through which cut is taken and how many teeth there are; the parity argument of C40 survives rounding because rounding is monotone and keeps 0, 1 and 2 |
| C86 | the search with sleeping workers (`Model/Blocking.lean`, `Spec/Blocking.lean`) | simulation in both directions with the search that looks again and again; simulation into the protocol model of C12/C81 (`OnceRun`); invariant on sleepers and owed notifications; C67 and C68 again for endless executions with sleeping workers |
| C87 | the member functions of queue, result and constraint deque as sequences of statements; threads interleave statement by statement, mutexes as owners; observers (`Model/Locks.lean`, `Spec/Locks.lean`) | every function takes its mutex before the first access and gives it back last; simulation in both directions with `Model/BranchAndCut.lean` (the operation takes effect when the mutex is released) |
| C88 | outcomes of `BranchAndCutSolve` and of the C function | case analysis of the outcomes; a worker that has thrown stays where it is, so a failed LP determines the outcome |
| C89 | the rounded separation with a bound on the rounding error (`Spec/CutsNear.lean`) | rounded sums are within a relative error of 1e-12 (induction over the agents, Bernoulli), hence all cuts are; the exact characterisation of C76 survives with the tolerances 2e-10 and 5e-11; C35 without algorithms (`feasible_of_cuts`) gives the integral case |
| C90 | the search with every operation rounded (`Model/SearchRounded.lean`), an LP solver of noise 1e-11 (`Spec/SearchRounded.lean`) | simulation: an execution in floating point is an execution of the exact model with reduced costs changed by at most 1.5e-11, since rounding moves the reduced cost test at one upper bound only; error analysis of the sum; then C42, C43, C62; the conditions on the objective value from the size of the instance, via the degree rows (`Proof/SearchSmall.lean`); a counterexample with rounding errors only |
| C91 | `TwoMatching` and `CreateGomoryHuTree` on the arrays of the code, every access checked (`Model/CheckedCuts.lean`); the bags of the tree are spans of one array partitioned in place | simulation: the arrays represent the state of the list model (`Rep`), whose invariant (C50, C85) gives all bounds; spans are disjoint because bags are |
| C92 | C API on top of `WM.make` and `nearestInsertion`; solutions stated on the input (`InputCover`, `Respects`) | errors: a solution yields an order and an assignment to agents that contradict each of the four reasons for an error; no errors: a solution is built from a topological order and the components. False in full: finding 22 |
| C93 | the benchmark driver (`Model/Bench.lean`): its arguments, its comparison with the best known bounds, its entries | C64 for a single agent, where both objectives are the length of the path; C46 for the entries |
| C94 | the callback's argument (`Model/Callback.lean`), weights and rows of the LP; the demo's annotation (`demoCost`) | the LP's objective is rewritten in input weights: pairs of copies differ from the input only where the rows force 0 (dependencies, other agents' artificial arcs) or where the way costs nothing (C19); every solution is a point of the LP (C33, C38–C40) |
| C95 | the search, the result object | a relation between the result at two moments (`ResState.NotWorse`), transitive, kept by every operation of the result (which keep the bounds ordered, C03); every step of a worker is at most one such operation |
| C71 | the argument of the fractional callback (`Model/Callback.lean`) | degree and flow rows summed over the nodes that stand for one input node |

All properties are expressible in a model; none is marked not applicable.


## 5. What is not modelled

Overflow and underflow of doubles, NaN; lack of memory; what the user's callback does (only its argument is modelled, C22, C71 and C94); CLP's internals; logging; the tests and build files; of python/tsplib/tsplib.py the reading of files and the loops, and of python/demos all but the cost that progress_visualization.py annotates (C94).

## 6. Disagreements between the properties and the code

Where a property is false of the code as it stands, the manifest lists a theorem `Cnn_refuted` with a concrete
accepted instance (evaluated by the kernel), and the positive theorem carries the suffix `_partial` and the weakest
exclusion found.

1. Nearest insertion remembers the last insert position per component; another component's insertion in the same
   path is not taken into account, so the order of a dependency can be violated (C26, C43).
2. 2-opt reads `u` before the inner loop and does not refresh it after an exchange (C30).
3. After the deadline the lower bound can be wrong and SOLVED reported falsely: an LP that times out drops its node
   (C42, C64); with several threads nodes pushed after `ClearAll` are dropped (same).
4. A deadline inside the construction heuristic leaves upper bound 0 without paths; the C API then indexes an empty
   vector, the codes NO_RESULT (-1, -2) are never returned, an assertion fails (C32, C48, C65).
5. One agent on two nodes: contradictory rows, the search ends with a logic_error (C33, C63).
6. Implied fixings of the artificial arc between two agents fix variables of feasible solutions (C37, C41).
7. The dependency of agent a's end on agent a+1's start is dropped (C20).
8. The Python wrapper truncates the last path if a node is a depot of two agents (C49).
9. The size check wraps around from 2^63 agents on (C55).
10. The 2-matching separator flips the last edge seen instead of the extreme one, so a reported comb cut need not be
    violated (C60).
11. As a consequence the search can run forever without a deadline: the cut that is added does not exclude the LP
    solution, so the same node is pushed and solved again and again (C67).  The theorem uses an optimal LP solution
    that is not a vertex; a simulation outside Lean with a simplex solver found the same behaviour on vertices, on about
    one of 3000 random instances with 8 to 10 nodes.
12. Reduced cost fixing adds the reduced cost to the LP value after that has been rounded up (BranchAndCutSolver, the
    bound stored in the node), not to the LP value itself.  It can therefore forbid solutions that are as cheap as the upper
    bound, including the only optimum; when both branches then are infeasible, the lower bound stays below the upper
    bound and the call ends with "Timeout not reached, but no optimal solution found" although the optimum has been found
    (C63, `C63_refuted_rounding`).
13. `Model::SetObjective` does not reset coefficients of earlier calls (C70); the solver calls it once, so this does not
    matter today. `AddConstraints` overflows `int` row starts if a batch has 2^31 entries or more (C69): with D
    dependencies that is about 2 D A N + 6 A N^2 entries, far above practical sizes.
14. The LP value is rounded up after subtracting 1e-10, so noise above 1e-10 makes the lower bound wrong: SOLVED with a
    solution that is not optimal (C72). CLP's default tolerances are 1e-7. From costs of 2^20 on one unit in the
    last place of a double exceeds 1e-10, so that any noise counts (C72_one_ulp; C72_refuted_relative is a search in which every LP
    variable is within 2^-52 of its exact value). Besides (not formalised), a cut in
    the LP that is violated by more than 1e-10 but less than CLP's tolerance is found again.
15. The Python function computes lengths from the matrix it was given, flags included. On a round trip whose last node
    depends on the depot (which is always fulfilled) the way home counts -1 (C80).
16. The Python function converts weights with `np.array(..., dtype=c_int)`, which cuts off fractions without a warning
    (-1.5 even becomes a dependency), treats every unknown objective as "sum", and does not check that there are as many ends
    as starts and that the matrix is square (C79).
17. A push into a queue that is not empty notifies nobody, so a worker can stay blocked although nodes are queued, until
    another worker comes back to the queue (C81, from four workers on). Only speed is lost: the search still ends (C86, C67, C68).
18. An instance of which all weights are DBL_MAX is accepted, but then no insertion costs less than the initial DBL_MAX of
    the construction heuristic, and `paths[SIZE_MAX]` is accessed (C83_refuted_huge_weights). The C API takes `int` weights.
19. `MtspResult::GetPaths` takes no lock and returns a reference. A program that calls it during the search, from another thread
    or from its callback while another worker runs, races with `UpdateUpperBound` (C87_refuted_get_paths). The solver, the C API
    and the tests only call it after the search.
20. If the LP solver fails (any CLP status but optimal, infeasible, time limit) and there are at least two workers, the exception ends
    the process instead of reaching the caller as error code (C88_refuted).
21. The tolerance 1e-10 with which the LP value is rounded up to a bound is absolute. With weights around 2·10^5 (costs of 589824)
    the rounding errors of the sum `Evaluate` alone exceed it: the lower bound becomes one too high, and a solution that is not optimal is
    reported as optimal (C90_refuted; finding 14 is the same with noise of the LP solver).
22. A dependency on a depot is not always understood as a user would. If two agents share a start, the copy of the start has the same
    dependencies as the start, so a node that has to come after it seems to belong to both agents; and a node that has to come before
    the depot of a round trip (where its path ends) is a dependency into a start. Both are satisfied by every solution, and both are
    reported as incompatible dependencies (C92_refuted_shared, C92_refuted_round_trip). On the other hand finding 7 makes the function
    return SOLVED for an instance without a solution (C92_refuted_dropped).
    The benchmark driver (python/tsplib/tsplib.py:70-72) starts all agents of a sequential ordering problem at node 0 and ends them at
    node N-1. So with two or more agents every such run is an error although there is a solution (C92_refuted_sop); the file
    python/tsplib/bench.json shows it for ESC25.sop with 2, 4 and 8 agents.
23. The benchmark driver (python/tsplib/tsplib.py:88) stops with an error if the lower bound is above the best known one. For the
    instances in best-known-solutions.json for which only an interval is known, a correct solver that closes the gap is called
    wrong (C93_refuted_open); `lb > best_ub or ub < best_lb` is what would be contradictory.
