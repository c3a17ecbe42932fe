# Formal model of protocon: design

## Approach

`/repo` is read as text; nothing is built or run.  The model is a set of
computable Lean 4 definitions under `lean/Verif/`, one group per source file,
each with a comment citing the lines it models.  Property theorems live in
`lean/Verif/Props/*.lean`; specifications that do not mention the model are in
`lean/Verif/Spec/*.lean` (paths, cycles, executions, self-stabilization, ring
executions, ...).

Conventions

* **Symbolic formulas.** A state predicate (`P::Fmla`) is a `Finset σ`, a
  transition formula (`X::Fmla`) a `Finset (σ × σ)` over a finite state type
  `σ`.  The BDD package that really represents them is trusted to implement
  the Boolean/relational operations; the constant-folding layer of `pfmla.c`
  is modelled separately (C41, C42).
* **Loops.** A C++ `while (true)` becomes `loopFuel body fuel state`, which
  returns `none` if the loop has not broken out within `fuel` iterations.
  Termination is "some explicit fuel suffices", divergence is
  "for every fuel the result is `none`".  No result is ever invented for a
  diverging run.
* **Undefined behaviour / assertion failure** (`Claim`) is a distinct outcome
  (`none` or an error constructor), never totalised away.
* **Empty submodules.** `dep/cx`, `dep/mdd-glu`, `dep/peg` are not in the
  checkout.  Containers (`Table`, `FlatSet`, `Set`, `BitTable`) are modelled by
  lists / sorted lists / finite sets with their evident semantics.

## Plan per property

| id | what is modelled | how it is proved |
|----|------------------|------------------|
| C01 | `pre_reach` loop | loop invariant (visited = states at distance <= k), measure = unvisited states |
| C02 | `img_reach` loop | as C01 on the reversed relation |
| C03 | `closure_within` | from C01 |
| C04 | `cycle_ck` both loops | decreasing span on closed sets; pigeonhole for cycles in finite sets |
| C05 | `cycle_ck` on arbitrary sets | expected false: two-state alternating witness, divergence for every fuel |
| C06 | layer counter in `cycle_ck` | span after k rounds = k-step image |
| C07 | `Fmlae::cycle_ck` | decreasing spans, post-fixpoint maximality |
| C08 | `probabilistic_livelock_ck` | greatest post-fixpoint |
| C09 | `weak_convergence_ck/2` | from C01 |
| C10 | `weak_convergence_ck/4` | layer invariant |
| C11 | `stabilization_ck`, `shadow_ck` direct branch | case analysis + C04 + execution semantics |
| C12 | same | converse direction |
| C13 | `shadow_ck` general branch | fixpoint invariants |
| C14 | same | fixpoint invariants |
| C15 | `find_one_cycle` | loop invariant; the picking function is a parameter |
| C16 | `sync_xn` | the formula of one action is compared with guarded commands, then induction over processes; systems with random writes are modelled but not covered by the theorem |
| C17 | `AddStabilization` as a nondeterministic search | invariant over runs with an oracle for all choices |
| C18-C22 | `ConflictFamily` as list of finite sets | refinement to the set of all added conflicts |
| C23 | id arithmetic | `Nat` div/mod |
| C24 | mixed radix | induction over the domain list |
| C25 | representative loop | decreasing index |
| C26 | bit packing | list of bits, 6-bit grouping, monotone length function |
| C27 | ppgfun conversions | table update lemmas |
| C28 | `AdjList` | invariant over `add_arc` |
| C29 | tiling search | torus tiling gives an infinite ring execution |
| C30 | exhaustive search verdict | counting argument on ring executions |
| C31-C33 | generator in `synthesize.cc` | potential argument per process; C33 expected false (witness) with partial theorem |
| C34 | `canonical_ck` | expected false in one direction (witness), other direction proved |
| C35 | Fisher-Yates style enumeration | induction giving every permutation exactly once |
| C36 | index arithmetic | `Nat` div/mod |
| C37 | search in the local graph | closed walk gives ring |
| C38 | same | expected false (illegitimate self-loop missed) |
| C39 | `IntPFmla` maps | pointwise semantics |
| C40 | incremental `unique` | induction over the range |
| C41 | three-phase formulas | refinement to finite sets |
| C42 | `pre1`/`img1` | expected false when the relation is the constant true |
| C43 | bucket shifting | induction over candidates |
| C44 | `coexist_ck` decision | exact characterisation over local states; symmetry false: order dependent `safe_ck` |
| C45 | option splitting | loop invariant |
| C46 | single process state machine | invariant over events; false for channels that are only written (witness) |
| C47 | any number of processes + network | inductive invariant over message history; false in general (witness), true without unknown `~0` packets |
| C48 | classifier decision | cycles of the column formulas are tilings (C04), tilings are livelocks; silence false for protocols that are not self-disabling (witness) |
| C49 | sweep iteration | ring theory: enabled processes move like tokens that eventually never collide, so executions are tilings; a sweep from a state where process 0 is disabled is collision-free |
| C50 | `stabilization_ck` with lo ≠ hi | monotonicity of every sub-check in (lo, hi); two option combinations are false (witnesses) |
| C51 | `stabilization_ck` | totality of every loop, the `Claim` follows from the fixpoint |
| C52 | `shadow_ck` silent cases | acyclicity; direct branch false (witness) |
| C53 | `stabilization_ck`, random systems | no trap outside the invariant, attractor argument |
| C54 | `shadow_ck` projections | from the projection equalities |
| C55 | `stabilization_ck`, uniring option | C49 + C12: every cycle state is reachable from a reported one |
| C59 | tiling search | a periodic block contains the triangle the search follows |
| C60 | `find_livelock_actions` | the reported actions keep a set with successors and predecessors inside it |
| C61 | `revise_actions` | actions together with pending additions are the same set for all systems |
| C62 | `ReviseDeadlocksMRV` | invariant of the sweep over ranks: ranks below i are final, the others as before |
| C63 | interactive `step`, `randomize` | induction over steps and variables |
| C64 | the two `eval` functions | relational semantics of one state; induction over the fuel |
| C65 | handles and objects | invariant of ownership, for every table of functions |
| C66 | `pick_pre`, `state_of`, comparisons | induction over the variables |
| C67 | `cycle_ck_from` | invariant of the depth-first search: finished nodes have visited successors only |
| C68 | `trim_coexist` | identifiers and triples correspond; masks as sets of triples |
| C69 | tile continuation digraphs | closed walks of triples are bands of tiles |
| C70 | `guided_livelock_ck` | induction over the limit: rows that follow each other down to the first |
| C71 | `searchit`, `recurse` | invariant of the loop over candidates: every solution extending the picks is printed or still possible; candidates discarded by `periodic_leads_semick` or `trim_coexist` are in no solution |
| C72 | `searchit` | the least renaming of a protocol satisfies all conditions of C71 |
| C73 | `livelock_semick` | a livelock is a tiling of the half plane that repeats with a skew; finitely many rows, so it contains a torus |
| C74 | reductions of `aperiodic.cc` | symbols instead of numbers; a tiling with action tiles decomposes into squares of four (nine) tiles; the numbering is injective on the symbols that occur |
| C75 | `TileSet` | descent: blocks of tiles of a tiled torus are a tiled torus with fewer rows; squares of every size by replacing tiles by blocks |
| C76 | `uniring_weak_convergence_ck` | the loop takes preimages by one process at a time; by a self-disabling process the second is empty; without cycles the sets are starts of ever longer paths |
| C77 | undirected reachability, transitive closures | reduction to C01; the sets grow, and a set closed under composition contains all paths |
| C78 | `SCC_Find` | invariant of the recursion: the skeleton is a path without shortcuts whose last state is the given node, so removing a component cuts it to a path again; a component lies in one of the two parts |
| C79, C80 | the synthesizer as a closed program: `revise_actions_alone` with everything it calls, `revise_actions`, the search | contract of `revise_actions_alone` (Proofs/SynthCert): a failure excludes every solution that fits, a success keeps every solution that fits and leaves a closed, livelock-free `lo_xn`; contract of `revise_actions` (Proofs/Revise); invariant of the stack and a weight that decreases (Proofs/Complete) |
| C81, C82 | `PickActionMRV`, `pick_action_candidates` | invariants of the loops over instances, ranks and candidates; the ranks come from C43/C62; C81_setting discharges the assumption on the choice in C79/C80 |
| C83, C84 | `candidate_actions`, and with it the whole synthesizer | case analysis of the loop body against a specification of improper actions; an answer to the posed problem contains no improper action, so it solves the problem left with the candidates, and C79 applies |
| C85-C88 | the threads of `stabilization_search` | invariant of the transition system of all threads (Proofs/Drive): reported solutions act as additional declared conflicts, so the contract of one trial (C79) applies to every trial; number of sets without known conflict decreases with every trial (Proofs/DriveEnd) |
| C89-C92 | the processes of the MPI driver | invariant of the transition system of all processes with the set of messages sent so far (Proofs/Mpi): validity of all messages and the contract of one trial (C79) are proved together; the measure of C87 per process (Proofs/MpiEnd); minimum and maximum by folds for the choice at the end |
| C93-C94 | writing and reading of expressions | the grammar is a parsing expression grammar with fuel (Model/Grammar); `Shape` says which trees a rule can give (Proofs/GrammarShape), `Back` that the text of such a tree is read back before every text that may follow it (Proofs/GrammarRead, GrammarBack, GrammarTrip); termination by the lexicographic order of length and rank of rules (Proofs/GrammarTotal) |
| C95-C96 | writing and reading of actions | the text of an action is the text of its tree (`write_text`, Proofs/Action), which is read back with `Back` of C93; the meaning of the tree by an invariant of the loop over the assignments (`asg_loop`, Proofs/ActionSem), compared with `xnOfPc_spec` of the synchronous model (Proofs/ActionMean) |
| C97-C98 | actions from transitions | invariants of the three loops of `Pc::actions` (`KeepInv`, `img_loop`, `pre_loop`, Proofs/ActRead); the round trip through a file combines them with C95 and C96 |
| C99-C100 | assumptions and invariants in files | the joined text is the text of a conjunction of the parts (`assume_text`, `legit_text`, Proofs/Legit), read with `Back` of C93; its meaning is independent of fuel and of the index map (`Den`, Proofs/LegitSem) |
| C101 | whole files | each rule is a total function with fuel; for each part of the text a lemma says what its rule reads whatever follows (`AtLast`: for all large fuel), repetitions by induction over the declarations (`Steps`), accesses by an invariant of the numbering of symmetric accesses (Proofs/FileSym), parts of a process and of a file as texts that can be put together (`PcPart`, `TopPart`) |
| C102 | transitions of actions | `global_mask_xn` is the set of pairs equal outside of the written and random variables (smoothing, induction); closed form of the table `act_xfmlaes` by induction on the number of actions: a fold of `self_disable` over the represented actions in ascending order; without chains the fold is the union; actions with equal assignments have no chains because an enabled action changes something; `C25` for representatives |
| C103 | actions of a system | membership in folds of unions; `C97`/`C98` for the actions found from transitions; the same assignment can be made in every process with distinct variables; `C24` numbers, `C102` for the relation built from actions |
| C104 | building of a network | the parts `[c*stride, (c+1)*stride)` for `c < refsz` cover each number below the size once, hence the order of `commit_variables` is a list of all members without repetition; invariant of `commit_variable`; closed form of the processes by induction on kinds, accesses and processes |
| C105 | ranking of actions | loop invariant: the layers so far are the states with that least number of steps; a shortest path passes through every smaller distance; closed form of the table by induction on the candidates |
| C106 | making conflicts smaller | closed form of the buckets by induction on the conflicts; induction on the loop of `add_small_conflict_set` with the contract of `revise_actions` (Proofs/Revise): what it refuses is in no solution, what it accepts passed the checks of closure, cycles and conflicts; these checks are antitone in the set of actions |
| C107 | testing guesses | contract of `pick_actions_separately` from that of `pick_action`: if it fails the picked actions are in no solution; invariant of the interleaved threads: the shared answer confirms a guess, a set flag has a rejected guess or a signal as its reason, every guess a thread has passed is confirmed; termination by a measure |
| C108 | verifying files | the exact conditions under which `stabilization_ck` accepts (C12/C13) and the validity of `find_livelock_actions` (C60/C79); invariant over the rounds of the threads; closed form of the merging |
| C109 | the Promela models | loops of the unrolling by the number of transitions left; invariant of the loop that finds `mod_val` and `add_val`; numbers of the processes by induction over the kinds; assignments to distinct members |
| C110 | synthesis with a SAT solver | invariant: no solution is excluded by the clauses (C12 for what the check accepts, C108 for the conflicts of livelocks); each new clause excludes the current model, so the number of models decreases |
| C111 | actions minimized with `espresso` | a cube and its text have the same points (cases of the three kinds of guards), rows and actions have the same points; two values in a part give two points of the cube |
| C112 | invariants of bidirectional rings for all sizes | search for a cycle: invariant of the visited configurations; cycles survive the removal of configurations that are on none; images of a configuration repeat (finitely many sets), and a ring of a size that is 1 modulo the period makes them grow, so they stay the same |
| C113 | the search for invariants of bidirectional rings lists each class once | induction over the recursion; of the renamings of an invariant the one whose missing blocks make the largest binary number is never pruned: a set visited earlier lacks a larger place |
| C114 | filters of invariants of bidirectional rings | explicit rings of all sizes from two cycles of lengths 2 and 3; the sets in the table of `subck_next10` are checked with the function of C112 and their rings renamed; loops by induction |
| C115 | listings of states, transitions and the topology | number of transitions left decreases; what is removed in a round has the line that was written; loops that only insert into maps |
| C116 | channels and tables of the UDP implementation | invariant between channels and the map of channels over the rounds of four loops; lookups in the written tests by uniqueness of keys; loops that fill and copy packets by induction on the list of shared variables |
| C117 | functions written for the actions of the UDP implementation | number of transitions (states) left decreases; a test covers the transitions from states with its values; the assumption does not depend on the variables that are left out, one after the other |
| C118 | invariants of bidirectional rings as they are written | induction on the loop over configurations with its cache; all continuations of a configuration have the same first two values; the rings of what is written are those of C113 |
| C119 | what processes with random writes may do | the new values of the written variables and old values of the others are the new state of a step of the process; induction over executions |
| C120 | built-in problem instances | the loop over processes is a conjunction; a relation between neighbours can be said of predecessors or successors; induction around the ring; invariant of the table of tokens |
| C121 | instances of a parameterized system | induction over the parameters: after the loop has passed some, the instances are all choices for these with the first values of the others; the number of instances is a product |
| C122 | reading of sets by the filter of bidirectional rings | induction on the places that are left to read, and on the lines |
| C56-C58 | impossible sets, file format, sizes of `ConflictFamily` | refinement to the set of all added conflicts |

## Trusted base

* Lean's kernel (4.33.0) and Mathlib's definitions used in the specifications.
* The axioms `propext`, `Classical.choice` and `Quot.sound`.  Every theorem named in
  MANIFEST.json depends on a subset of these three and on nothing else (`#print axioms`);
  `native_decide`, `bv_decide` and own axioms are not used.
* The reading of the C++ source recorded in the comments of the model.

### What is modelled

| model file | source |
|------------|--------|
| `Model/Sym` | `src/pfmla.cc` 15-126 |
| `Model/Fmlae` | `src/xfmlae.cc` `cycle_ck`, `probabilistic_livelock_ck`, `uniring_cycle_ck` |
| `Model/Stab` | `src/stabilization.cc` 1-451 |
| `Model/Conflict` | `src/conflictfamily.cc/.hh` |
| `Model/Uni` | `src/uni/uniact.hh`, `src/uni/adjlist.hh`, conversions of `src/uni/unifile.cc` 15-131 |
| `Model/Index` | action numbering of `src/xnspec.hh`, `src/xnpc.cc`, `src/xnsys.cc` 16-92, 273-352 |
| `Model/UniSynth` | `unidirectionalRingProtocolGenerator`, `src/uni/synthesize.cc` 58-151 |
| `Model/Livelock` | `livelock_semick` and its helpers, `src/uni/livelock.cc` 54-177 |
| `Model/Canonical` | `src/uni/canonical.cc`, `src/biring.cc` 69-128, 478-535 |
| `Model/Deadfree` | `src/deadfree.cc` 13-158 |
| `Model/B64` | `src/uni/unifile.cc` 161-230 |
| `Model/OneCycle` | `src/xnsys.cc` 732-809 |
| `Model/Search` | `src/search.cc` 22-64, 73-207, 260-308, `src/synthesis.cc` 1360-1536 (effect on the chosen actions; the rest of `revise_actions_alone`, `useless_picks`, `PickActionMRV`, the conflict database and `stabilization_ck` are arbitrary functions) |
| `Model/Sync` | `src/xnsys.cc` 825-970 (`sync_xn`, `semisync_xn`, `xn_of_pc`); the loop over the members of a symmetry is turned inside out; `Net::action`, `represented_actions` and `okay_xn` are parameters |
| `Model/Rank` | `src/synthesis.cc` 122-261 (`RankDeadlocksMRV`, `ReviseDeadlocksMRV`) |
| `Model/Interactive` | `src/interactive.cc` 83-128, 191-214, 310-325; printing and reading of text and the other commands are not modelled |
| `Model/IntFmla` | `src/pfmla.hh` 455-529, `src/pfmla.cc` 168-455 (`IntPFmla`) |
| `Model/Eval` | `src/prot-xfile.cc` 1155-1386, 1393-1617, 1637-1725; the expression is a syntax tree; the values of process `let`s and predicates are given |
| `Model/PFmla` | `src/pfmla.c` (all but `subst_vbls_PFmla` and the construction of contexts and variables), `src/pfmla.h` 198-275, `src/pfmla-glu.c` 71-456; objects of the decision diagram library are values |
| `Model/Udp` | `src/udp-impl/protocol.c` 8-61, 225-283, 672-1072, one round of the main loop 1163-1206; sockets, checksums, byte order, signals and timing are not modelled; `act.h` gives the parameters |
| `Model/Classify` | `src/uni/classify.cc` 19-86 (both classifiers); reading of options and files is not modelled |
| `Model/Coexist` | `src/synthesis.cc` 12-120 (`coexist_ck`), `src/xnsys.cc` 394-412 (`safe_ck`), 984-996 (lightweight `represented_xns_of_pc`); the actions represented by an action are a parameter |
| `Model/Generate` | `src/uni/generate.cc` 89-545 (search without given actions, without BDDs and without breadth-first output), `src/uni/livelock.cc` 9-52, 179-394, `src/uni/unifile.cc` 292-321; a `BitTable` of actions is the set of its members |
| `Model/Aperiodic` | `src/uni/aperiodic.cc` 48-306 with the output `-id` (the outputs `-list`, `-gv`, `-pml`, `-prot` are not modelled), `src/uni/unifile.cc` 519-563 |
| `Model/Graph` | `src/pfmla.cc` 458-619, `src/xfmlae.cc` 9-34 and 329-367, the number of weak layers of `stabilization_ck` (src/stabilization.cc 406-429) |
| `Model/Synth` | `src/synthesis.cc` 705-732, 835-887, 947-1358, 1387-1412, 1624-1709, `src/search.cc` 217-238: the functions that `Model/Search` leaves open, with the calls of `done_ck` (`pollG`), which may receive conflicts and may say at any time that the search must end.  Not modelled: the swapping of useless picks (shadow/puppet only), `use_csp`, the special treatment of unidirectional rings, probabilistic and synchronous systems |
| `Model/Pick`, `Model/PickSyn` | `src/synthesis.cc` 277-698.  `biasMap` is the list of its insertions; `Set<uint>` iterates in ascending order and `elem()` is its least member; `fill` replaces the contents of the vector (missing library); the trial revisions of `LCVHeavyPick` and `LCVJankPick` are an input; the log lines and the special output for `mrv_dlset_idx` are left out |
| `Model/Cand` | `src/xnsys.cc` 1055-1265.  Transitions of actions and processes, the roles of variables, and the operations on variables (smoothing, `img_eq`) are inputs; in the direct case smoothing all variables is assumed to turn a satisfiable formula into true (C84 also assumes that actions have no self-loops, as `self_disable` ensures) |
| `Model/Drive` | `src/search.cc` 700-1047 for `SearchTask` with `BacktrackSearch`: any number of threads with shared `done_flag`, `solution_found`, `ret_actions`, `conflicts`; steps are the parts of the loop, interleaved arbitrarily.  Not modelled: `conflicts_xfilepath`, `solution_guesses`, `known_solution`, `optimize_soln`, `RankShuffleSearch`, the other tasks, printing; a flag set by another thread during the `revise_actions` at the end of the loop (the thread then leaves the loop) |
| `Model/Mpi` | `src/main-mpi.cc` 93-366 for `SearchTask` with `BacktrackSearch`: any number of processes, messages and the choice at the end.  Assumed of `MpiDissem` (library cx): only messages that were pushed arrive, `done_ck` is true only after a `terminate` and stays true in the process that called it; nothing about delivery.  Not modelled: files of conflicts, `solution_guesses`, `optimize_soln`, `RankShuffleSearch`, the other tasks, printing |
| `Model/Grammar` | `src/prot-xfile.leg` 300-593, 701-712 (expressions; not the other rules), `src/prot-xfile.cc` 980-1152 (`string_expression`); numbers are unbounded |
| `Model/Action` | `src/prot-xfile.leg` 86-126 (actions), `src/prot-ofile.cc` 170-267 (without espresso), `src/prot-xfile.cc` 359-539 (`parse_action`; the cycles removed for `-=>` are a parameter), `src/xnpc.cc` 7-25 |
| `Model/ActRead` | `src/xnpc.cc` 97-133, 168-272 (`Pc::actions`, `PcSymm::actions`), `src/prot-xfile.cc` 558-600 (`add_action`, effect on `puppet_xn` only) |
| `Model/Legit` | `src/prot-xfile.leg` 150-161, 262-298, 596-690, `src/prot-xfile.cc` 797-865, 905-974 (assumptions and invariants; a predicate must evaluate without side effects other than the index map), `src/prot-ofile.cc` 275-362, 394-412, `src/opt.cc` 48-133 |
| `Model/File` | `src/prot-xfile.leg` 23-84, 86-260 (the rules of a whole file; a file that calls `bad_parse` is not accepted), `src/prot-xfile.cc` 34-120, 210-355 (only the texts that are kept), `src/prot-ofile.cc` 63-108, 200-267, 362-449 (without espresso; the topology is that of the file) |
| `Model/ActXn` | `xnsys.cc` 58-92, 217-270 (masks), 353-391, 976-1053; `xfmlae.hh` 41-59, 119-134; `stabilization.cc` 489-518 | formulas are sets of pairs of states; processes carry their symmetry instead of an offset into `pcs`; numbering and representatives as in `Model/Index` |
| `Model/SysInit` | `xnsys.cc` 602-626; `stabilization.cc` 535-557 | uses `Model/ActRead` for `PcSymm::actions` and `Model/ActXn` for the relation of actions; only the relation is modelled, the checks on it are in `Model/Stab` |
| `Model/NetBuild` | `xnsys.cc` 121-270, `xnspec.hh` 67-106 | `identity_xn` and `global_mask_xn` are lists of the variables whose equation they contain; names are left out |
| `Model/RankActs` | `search.cc` 311-355, 887-899 | formulas are finite sets of states and pairs; `urandom.shuffle` is any permutation |
| `Model/MinConf` | `search.cc` 455-515, 744-830, 1031-1034 for `MinimizeConflictsTask` | each thread runs from its start to the merge on its own (threads share only `done_flag`, whose values are the answers of `done_ck`, and the merged database); `schedule(dynamic)` is any assignment of the conflicts to the threads; `&flat_conflicts[0]` of an empty table for the random order is not modelled; a failed `Claim` inside of `add_small_conflict_set` is excluded by the proof only for the calls of `revise_actions` |
| `Model/TestTask` | `search.cc` 831-880 (`TestTask`), `synthesis.cc` 1553-1583 (`pick_actions_separately`), `synthesis.hh` 188-204 | a step is one part of the loop of a thread, interleaved in any way; the test of a guess is one step, with the answers of `done_ck` as parameters; the parsing of the files of the guesses is not part of it (see `Model/ActRead`) |
| `Model/Verify` | `search.cc` 653-698, 782-797, 1031-1034 (`VerifyTask`); `info` of `stabilization_ck`, `stabilization.cc` 277-380; choice of the relation, 535-557 | a file is what reading it results in (`Model/File`, `Model/SysInit`); the rounds of different threads are put in the order in which they write `solution_found` and `ret_actions`, though the code writes them without synchronization; `known_solution`, the output files and `-rank-shuffle` (which then uses `systems[0]` of an empty table) are left out |
| `Model/Promela` | `promela.cc` 7-58, 73-140, 202-212; `xnsys.cc` 414-477 (`unroll_action`) | the result is a program in the sense of `Spec/Promela`, not text; left out: constants, declarations, initialization (`init`, `initialized`), `#define`s, the property; index expressions are functions of the number of the process, that Promela evaluates their text in this way is assumed; the transitions of an action (`represented_xns_of_pc`) are given |
| `Model/Msat` | `msat.cc` 68-74, 108-191 without `WITH_PRE` | the solver is a parameter, assumed to be correct; the results of `candidate_actions` (`Model/Cand`) and `coexist_ck` (`Model/Coexist`) are given; reading, messages and writing are left out |
| `Model/Pla` | `pla.cc` 15-40, 78-84, 122-240 | a file is a list of cubes; `espresso` is a parameter: it may answer any cubes that cover the same points and have no empty part; header, names, comments and the starting of the program are left out |
| `Model/Biring` | `biring.cc` 158-271, 331-435 without the parts in `#if 0` and `better_biring_sat_ck` (never called) | a bit table is the set of its places; `begidx_BitTable`, `nextidx_BitTable` give the next place that is set |
| `Model/BiSearch` | `biring.cc` 613-731 (`recurse`, `searchit`) | the set `db` and the lines written are one list, since each set that is added is written (`true \|\| ...`, line 670); the name of a file that is made and never used is left out; the order of bit tables is a parameter (a strict total order) |
| `Model/BiFilter` | `biring.cc` 130-140, 437-476, 843-1006 | setting a bit outside of a table and reading behind the end of a string are `none`; the strings have a zero byte at the end |
| `Model/Listing` | `xnsys.cc` 507-575, `graphviz.cc` | a formula is the set of its transitions and not the constant `true`; the choice of `pick_pre` is any function that gives a state of a set that has one (C66); numbers of processes and `dir="both"` stand for the lines |
| `Model/UdpTab` | `udp-ofile.cc` 29-184, `udp-impl/protocol.c` 729-735, 896-904 | the written text is the list of its tests; nested loops over processes and variables are one loop over pairs; tables indexed by processes are functions |
| `Model/UdpAct` | `udp-ofile.cc` 186-411, `udp-impl/protocol.c` 672-680 | the variables of a process are a state of which only the readable puppet variables matter; the written text is the list of its tests; the transitions of the representative process are given (C102); random variables have their values before the tests |
| `Model/BiOutput` | `biring.cc` 537-611, 733-815 | the written text is the list of its clauses with their meaning; of the graph only the edges are modelled, as pairs of nodes, and not the lines that give labels to the nodes |
| `Model/Fixup` | `xnsys.cc` 94-118, 934-943; `pfmla.hh` 232-237 | formulas are sets; the list of written variables of a process is the set of its variables and the random variables |
| `Model/Inst` | `inst.cc` | processes are given by the numbers of their variables, formulas by their value in a state; names and index expressions are left out; integers do not overflow |
| `Model/Params` | `opt.cc` 191-207, 236-272; `xnspec.hh` 67-94 | the text of a value is the list of numbers written in it; a map of constants is the list of its entries; the reading of numbers is left out |
| `Model/BiRead` | `biring.cc` 818-841, 1008-1055 | the input is the list of its lines; what is written for a set is the list of the kinds of answers |

Everything else in `/repo` is not modelled: in particular the evaluation of the numbers in declarations, `biring-ext.cc` (its `#include` is commented out), the rest of option parsing (`opt.cc`), the MPI drivers other than `main-mpi.cc` and `pfmla-minisat.cc`.

### Assumptions about the missing libraries

* `mdd-glu`: formulas implement the Boolean and relational operations on finite sets.  In `Model/PFmla`
  this is reduced to: diagrams are sets of assignments, equal diagrams are equal sets, `mdd_smooth` is
  existential quantification, and `mdd_substitute` replaces the old by the new variables in diagrams
  that do not depend on the new ones (nothing is assumed in other cases; the code needs nothing else).
* `cx`: `Table` is a list, `FlatSet` a sorted duplicate-free list compared lexicographically,
  `Table::operator<` the lexicographic order, `BitTable::operator>` some strict total order on
  tables of equal size, `index_of_state`/`state_of_index` mixed radix numbers with the most
  significant digit first; `lg_luint` is the position of the highest one bit; the bit order of
  `BitTable::set/get` is a parameter (both orders are covered); `Remove1` removes the first
  occurrence, `Table::add_domain(k)` repeats every entry `k` times, `umod_int` is the nonnegative
  remainder, references into an `LgTable` stay valid when it grows; `ceil_quot` rounds up and `Tuple<uint,2>` is compared lexicographically.
* Machine integers are unbounded naturals unless a definition says otherwise (bytes of
  `PcState` are modelled by `toByte`).
* `Map::ensure(key, value)` (C74, C75) returns the value stored for the key, after storing `value` if there was none; a `Set` is
  traversed in ascending order and `fill` copies it in this order.

## Findings: where the code violates a property

* **C05** `cycle_ck` (src/pfmla.cc) does not terminate for some sets that are not closed.
* **C14** With invariant style "shadow"/"active shadow" `shadow_ck` enlarges the invariant after
  trimming (src/stabilization.cc:255-262); the enlarged set may contain transitions that are
  neither specified nor invisible.
* **C33** `unidirectionalRingProtocolGenerator` (src/uni/synthesize.cc) does not always give a
  deadlock-free protocol: for two values and the legitimate pairs (0,0), (0,1), (1,1) the
  ring 0,1 is not legitimate, yet no process can act.
* **C34** The swaps in `canonical_ck` (src/uni/canonical.cc:53-55) produce only some permutations
  (4 of 6 for three values), so several members of one isomorphism class are accepted.
* **C26** The reader's bit table has no room for the padding of the last character
  (src/uni/unifile.cc:207,221, the writer adds 5 bits): it writes up to 5 bits beyond the table.
  For d = 8 the table is exactly 256 bits, so the write is outside any word-sized allocation.
* **C38** `deadlock_freedom_ck` reports a silent ring only if one of its processes is *legitimate*
  (`legit |= ...`, src/deadfree.cc:115,130), so rings whose processes are all illegitimate are
  missed and "The protocol does not have deadlock." is printed.  The stack of trace nodes is emptied
  by the first closing that is not reported, so traces printed later may be incomplete.
* **C50** The layer limit with fixpoint layers is not monotone, and the `FutureActiveShadow`
  checks use the trimmed set of the *partial* protocol; in both cases a partial protocol with an
  accepted completion is rejected.
* **C52** In the direct branch, style "silent" does not forbid transitions in the invariant.
* **C62** `ReviseDeadlocksMRV` stops at the assertion "BUG! Don't use -fast-deadlock-mrv flag"
  when two candidates that are each the last one of some deadlock are removed at once
  (`C62_claim_fails`); when it completes its table is exact.
* **C40** A range `i < e` with `e = 0` is rejected instead of being empty (`C40_empty_rejected`).

Limits outside the claims, with witnesses where a theorem exists:

* **C20** A truncated exchange message reads out of bounds (`C20_truncated_message`).
* **C22** A loaded file that lists the empty conflict beside others is not recognised as
  unsatisfiable (`C22_loaded_file_limit`).
* **C23** Values are bytes, so identifiers are wrong for domains above 256
  (`C23_large_domain_limit`).
* **C24** `pre_idx_of_img` (used at src/synthesis.cc:1617) exchanges assignments and guards; for
  processes that write pure shadow variables or use effects the assignment domain is larger than
  the guard domain, so the number may name another guard.
* **C25** A link symmetry with no links makes `ob.nlinks-1` wrap around (src/xnsys.cc:327).
* **C27** Nondeterministic action lists and domain sizes inferred from actions lose information
  (`C27_nondeterministic_limit`, `C27_inferred_from_actions_limit`).
* **C28** Adding more arcs than were announced overwrites the next node
  (`C28_overflow_limit`).
* **C30** For a protocol that is not self-disabling the verdict `Nil` of `livelock_semick` does not
  exclude infinite executions (`C30_needs_self_disabling`).
* **C49** For nondeterministic rings the `Claim` at src/xfmlae.cc:289 can fail.
* **C60** In synchronous systems the relation is not the union of the actions' transitions, and
  `find_livelock_actions` may return no action (`C60_synchronous_limit`); src/stabilization.cc:375
  does not exclude such systems (src/synthesis.cc:1249 does).
* **C17** `try_order_synthesis` adds `info.livelock_actions` as a conflict although it never asks for
  them (src/search.cc:297-301), so the table is empty and the added conflict excludes every protocol
  (`C17_order_empty_conflict`, and a run in `C17_order_empty_conflict_sample`).
* **C17** With `verify_found` off and no system that is only verified, every solution found ends in the
  failing `Claim2( nlayers_sum ,>, 0 )` (src/search.cc:204; `C17_no_verification_aborts`).
* **C64** The name of a quantified variable is erased from `index_map` at the end of its quantifier
  (src/prot-xfile.cc:1339), also if an enclosing quantifier or the process uses the same name: the rest
  of the outer body is rejected or, if there is a constant of that name, evaluated with the constant
  (`C64_shadowing`).  A `let` of an action hides a quantified variable of the same name
  (`C64_hidden`).
* **C64** `&&` and `=>` do not protect an undefined operation in their second operand by a condition on the
  state (`C64_guarded_division_rejected`).
* **C39** `img_eq` with a set of several numbers on the right indexes a state without entries; the model
  has no outcome for it.
* **C42** `pre1_PFmla` and `img1_PFmla` return `true` if the relation is the constant `true` and the set is a
  diagram, even an empty one (src/pfmla.c:455-457, 534-536; `C42_true_of_empty`).
* **C42** `img2_PFmla` with the constant `true` as set quantifies all variables, not only those of the list
  (src/pfmla.c:552-553), so the result contains states in which guards on variables that are not written
  are violated (`C42_img_list_true`).  `X::Fmlae::img` (src/xfmlae.hh:96-102) calls it.  The calls of
  `ensure_ctx` in src/xfmlae.cc avoid the case.
* **C66** `pick_pre_PFmla` of an empty diagram returns a state (`C66_pick_pre_unsat`).
* **C46** `all_adj_acknowledged` skips channels from which the process reads nothing; the comment speaks of
  the processes that read from this one (src/udp-impl/protocol.c:766-777; `C46_unread_skipped`).
* **C46** `fix_process_state` corrects values outside their domains at any time, without permission.
  The initial state is randomized (src/udp-impl/protocol.c:489), acknowledgements included, so the permission
  is only proved for starts in which an enabled process has no acknowledgement.
* **C47** A waiting process that accepts a packet with the flag `~0` stores the neighbour's new sequence number
  and may answer with its own, lower, priority, without a new sequence number of its own
  (src/udp-impl/protocol.c:931-966).  It keeps the agreement it has and gives the neighbour one.  In the
  shipped matching ring two neighbours then both hold the agreement of the other (`C47_both_granted`),
  and one acts on a value that is no longer current (`C47_acts_on_stale_value`).
* **C48** Silence reported by `bdd_classify` can be wrong if a process stays enabled after its action
  (`C48_needs_self_disabling`); neither the tool nor the reader of its input checks this.
* **C44** `coexist_ck` looks at the combined action of `a` and `b` if `a` enables `b` and only otherwise at the
  one of `b` and `a` (src/synthesis.cc:101-118).  With a write-only variable and a `forbid` the answer depends on the
  order of the arguments (`C44_asymmetric`), hence what `QuickTrim` removes on the order of the picks.
* **C44** The option `pure_actions` of `coexist_ck` and its first test have no effect: actions with equal guards
  are rejected anyway (`C44_pure_actions_no_effect`).
* **C44** With `force_disabling` an action that changes only write-only variables and remains enabled is
  accepted (`C44_self_loop_accepted`).
* **C70** `guided_livelock_semick_rec` returns `Yes` at the row that closes the tiling without recording the actions
  of this row (src/uni/livelock.cc:217-218), so `livelockset` can lack actions of the livelock
  (`C70_livelock_set_incomplete`).  `periodic_leads_semick` then discards candidates that are part of no livelock with the actions
  picked so far (`C70_prunes_too_much`).  Evaluating the model (not a theorem) with domain size 4, `max_period` 2 and
  `max_propagations` 4, the search prints 78 functions; when the last row is recorded it prints 79, the additional one
  being `4 0 3 4 / 4 4 4 2 / 2 4 4 1 / 4 3 0 4`.
* **C71** `searchit` always tries the start `id_of3(0, 1, 2)`, whose Claim fails for domains of one or two values, so
  `generate` aborts there (`C71_small_domains`).
* **C74** `LookupSymId` gives the pair of colours (UINT_MAX, UINT_MAX) the id of the symbol `$` (`C74_color_clash`), and ids above 255
  are truncated when an action is made (`UniAct` holds bytes) without a check.  Neither happens for the tile set in the file.
* **C76** `uniring_weak_convergence_ck` does not check weak convergence.  It never takes a step by any process but the last in its
  first round from states where only the last process is enabled, so for self-disabling processes its answer is
  deadlock freedom (`C76_uniring_weak_partial`): it accepts a deterministic self-disabling ring that cannot converge
  (`C76_true_but_not_convergent`).  The number of weak layers printed with `-uniring` is therefore at most 2 and differs from the
  one printed without (`C76_layers_differ`).  Without self-disabling processes it can also reject a protocol that converges
  (`C76_false_but_convergent`) or run forever, alternating between two sets (`C76_runs_forever`).  In `stabilization_ck` only the
  number is used.  `revise_actions_alone` (src/synthesis.cc:1313-1317) calls it with the candidate actions, whose processes need
  not be self-disabling as a whole: a wrong `true` only loses pruning there, but a wrong `false` discards a partial
  solution and the loop may not end.
* **C78** `SCC_Find` does not report a state whose only cycle is a self-loop, unlike `cycle_ck` (`C78_self_loop`); its tests use
  relations without self-loops, where both agree (`C78_scc_find_cycle`).
* **C79** With three systems `revise_actions` loses solutions: a system for which nothing changed is skipped by `continue`
  (src/synthesis.cc:1381-1382), so `common_dels` is not intersected with the actions that are redundant there, and an action
  needed only there is deleted everywhere (`C79_three_systems_incomplete`).  With one or two systems this cannot happen.
* **C79** With the default `max_height` 3 the search overwrites older entries of its stack and reports failure for solvable
  problems (`C79_default_height_incomplete`).
* **C79** Actions that are forced in the same round are added together even if `coexist_ck` excludes them, unless
  `prep_conflicts` is set (`C79_clash_found`).
* **C79** (not formalized) when `adds` and `dels` overlap, `revise_actions_alone` looks at `mcv_deadlocks[1]` to choose a
  message; the table has no such entry if nothing is deadlocked.
* **C84** If all considered states are legitimate but not all states are, `candidate_actions` finds no candidate, returns false,
  and synthesis fails although the protocol without actions is correct (`C84_nothing_to_do`).
* **C84** If all states are legitimate, `candidate_actions` returns no candidates even if the shadow protocol moves, so that
  synthesis fails (`C84_all_legitimate`); nor does such a system reject its forbidden actions (`C84_forbidden_found`).
* **C85** After each trial `trim(max_conflict_sz)` (src/search.cc:988) also drops conflicts that the user has declared, so that a
  later trial may report a protocol with a forbidden combination of actions (`C85_trim_forgets_declared`).
* **C87** With `max_depth` a trial can fail without learning anything; with no limit on the trials the loop then never ends,
  even if the problem has a solution (`C87_max_depth_endless`).
* **C88** (positive) restarts make up for the forgetful stack of `C79_default_height_incomplete`: with the default `max_height` the
  driver finds a solution whenever there is one.
* **C91** In the MPI driver a solution with `solution_nlayers_sum` 0 counts as none: the result is -1 and "No solution found" is
  printed (`C91_zero_layers`).  This is so for `RankShuffleSearch` and `VerifyTask`, which leave `optimal_nlayers_sum` at 0.
* **C92** In the MPI driver with `try_all` a solution becomes a conflict in `conflicts`, but the search uses
  `synctx.conflicts`.  Without a limit on the trials no process ever ends if there is a solution (`C92_try_all_endless`).
* (not formalized) in `main-mpi.cc` a failure of `initialize_conflicts` does `return false`, which is the number of process 0, so
  "Solution found! (By PcIdx 0)" is printed; processes other than 0 send only conflicts not yet flushed for `conflicts_ofilepath`.
* (not formalized) `multi_verify_stabilization` writes its shared results outside of a critical section; `done_flag` is static and never reset, so a second call
  of the search in one process would end at once.
* **C93** `==` between truth values binds more strongly than `&&`, but its key in the tree is `<=>`, and `string_expression` writes
  this without parentheses.  `(x[0]==1) == (x[1]==1) && x[2]==0` comes out as `(x[0]==1) <=> (x[1]==1) && x[2]==0`, which is read as
  an equivalence with the conjunction: the output file has a different invariant (`C93_equal_lost`).
* **C93** `string_expression` puts the text of a `let` in place of its name without parentheses: under the symmetric link
  `j <- {i+1}` the index `2*j` is evaluated as `2*(i+1)` and written as `2*i+1` (`C93_let_lost`).
* **C95** An action of a process without readable variables is written as `(  --> x[0]:=1; )`, which the grammar does not read
  (`C95_unguarded`).
* **C95** (not formalized) with `-espresso` the section ends with `;` twice (src/prot-ofile.cc), and a lone `;` matches no alternative of
  the body of a process (src/prot-xfile.leg:188-207), so that the file written cannot be read.
* **C96** If a process writes one variable through two accesses (a ring of size one), `parse_action` marks only the first as assigned
  and demands that the second keeps its value: the action read back has no transitions (`C96_alias`).
* **C96** A name of both a constant and a variable means the constant in a guard and the variable on the left of an assignment
  (`C96_constant`).
* **C96** A self-loop is written as `( g --> )`; read back, it is a set of self-loops, while the action index has no transitions
  (`C96_self_loop`).
* **C96** (not formalized) for a random variable with a write-only assignment, `parse_action` removes self-loops and `xn_of_pc` does
  not; assigning a write-only variable of domain size 1 is always a self-loop and is lost; the effect of `_ := _` depends on
  the order of the assignments (the code says "TODO: Why?").
* **C97** If two references of a process mean one variable and one of them is write-only, `smooth` also removes the condition on
  the readable one, and transitions are lost (`C97_alias`).
* **C98** If actions assign every value of a write-only variable, `Pc::actions` replaces them by one action that keeps the variable,
  which has no transitions; a protocol that is written, read and written again loses these actions (`C98_write_only_lost`).
* **C99** The style `closed` with the scopes `shadow` and `future` (options `((future & closed) % puppet)`) is written in a form that
  no rule of the grammar accepts (`C99_closed_lost`).  There is no option for `((future & active shadow) % puppet)`,
  `(future & future silent)`, `(future & future active shadow)` and `(future & future closed)`, and the second branch for
  `(future & silent)` in `parse_style` (opt.cc:110-113) is dead (`C99_option`).
* **C100** `add_legit` and `add_pc_legit` put parentheses around the invariants before, but not around the one that is added
  (prot-xfile.cc:832-865, 951-980; `add_assume` does): with the invariants `x[2]==0` and `x[0]==0 || x[1]==0` the written
  file has a weaker invariant (`C100_legit_weaker`).
* **C101** The names of a `symmetric` tuple are replaced by the texts of their values without parentheses (prot-xfile.cc:992-998): with
  `symmetric a <- {# i-1, i+1 #} { read: x[2*a]; }` the process reads `x[2*(i-1)]`, but the actions written mention `x[2*i-1]`
  (`C101_substitution`).
* **C101** A list of one constant comes back as a number (`C101_short_list`); predicates are written before the invariants, so that an
  invariant that was stated before a predicate may come back with another meaning (`C101_predicates_first`).
* **C101** (not formalized) nothing calls `push_conflict_action` (prot-xfile.cc:761), so a section `conflict:` has no effect and is not
  written; actions of the role `direct` are written in the section `shadow:`; a value of a `symmetric` tuple that contains
  its own name makes `string_expression` call itself forever; processes without members are not written.
* **C102** With `lightweight`, `action_pfmla` subtracts the image of the action in the whole system (`xn -= xn.img()`, xnsys.cc:366-368) where
  `self_disable` does so process by process: steps that start where another process can lead with the same action are missing
  (`C102_lightweight_loses`).
* **C102** With `lightweight`, `stabilization_ck` does not apply `self_disable` (stabilization.cc:495-501): an action that exchanges the values of two
  written symmetric links is a cycle there and nothing at all otherwise (`C102_exchange_differs`).
* **C102** `cache_action_xfmla` applies `self_disable` after each represented action, `action_xfmlae` with `lightweight` once after all: with three
  written symmetric links they differ, and which transitions are kept depends on the numbering (`C102_order_matters`).
* **C103** `PcSymm::actions` looks at one representative process (xnpc.cc:247-272). If guards depend on the index of the process, `sys.actions` differs from
  `direct_pfmla`, and `stabilization_ck` checks a different relation when information is asked for (stabilization.cc:544; `C103_index_guard`).
* **C103** An action stated for one order of symmetric links is replaced by its representative, which stands for all orders (xnsys.cc:623): the relation
  checked when information is asked for has transitions that the file does not state (`C103_one_order`).
* C105: `rank_states` (src/search.cc:326) asks that the invariant can be reached from *every* state, also from states outside the assumption.  With an assumption `RankShuffleSearch` therefore gives up before its first trial though a solution exists (`C105_refused_solution`).  Also, layer 0 of the ranked actions is always empty, so `&candidates[off]` at src/search.cc:895 takes the address of an element of an empty vector.
* C107: with `-x-try-subset` the actions of the guess are picked greedily (src/synthesis.cc:1553-1583).  A guess that contains a solution is rejected if its first actions make a cycle, and accepted in another order (`C107_subset_order`); with `randomize_pick` the answer is random.
* C108: with synchronous steps `find_livelock_actions` looks for single actions that make the steps of the livelock; if there are none the empty set is added as a conflict (src/search.cc:692), which every protocol contains (`C108_synchronous`).  With several files the message "Protocol is self-stabilizing!" (src/main.cc:63) means that any one of them is (`C108_any_file`).  `solution_found` and `ret_actions` are written by several threads without a critical section (src/search.cc:674-675).
* C109: `OPutPromelaPc` writes no proctype for a kind of processes without actions (src/promela.cc:91-92), but the caller adds its number of processes to the offset all the same (line 211), while Promela numbers only the processes there are: in all later proctypes `_pid - offset` is too small, references go to wrong or nonexistent members (`C109_gap`).
* C109: accesses that do not take part in the unrolling (pure shadow variables, random writes) keep 0 in the action (src/xnsys.cc:434, 445) and are written by `OPutPromelaAction` as guards `==0` and assignments `=0` (`C109_shadow`, `C109_random`). Without a representative process the actions of a kind are left out with only a message (`C109_no_representative`).
* C110: if every state is legitimate `candidate_actions` returns before it sorts the actions (src/xnsys.cc:1075-1080); the SAT problem then has no clauses, and the clause for a rejected model is empty (src/msat.cc:175-180), so the program ends after the first model, whether or not there is a solution (`C110_unrestricted`).
* C111: `espresso` may join actions with the same guard and different assignments, then the `Claim` of src/pla.cc:153 fails (`C111_choice`).  Variables that are written but not read get a guard (`C111_unread`), an action that keeps the value of a shadow variable is a cube that covers nothing and is lost (`C111_keep`), and a random write is written as `:=0` (`C111_random`).
* C114: `biring -echo -subck-known` is only for three values: with `-domsz 2` the patterns of `subck_3match` and `subck_next7` set bits outside of the table, with `-domsz 4` `subck_next10` reads behind the end of its strings (`C114_known_undefined`).
* C116: with a process that accesses a variable twice (as on a ring of two processes that read both neighbours) the written `variable_of_channel` gives the last access for both, so the first keeps its old value forever (`C116_stale_copy`). If two processes write a variable, the second never sends what it wrote, and it is replaced by the value of the first (`C116_lost_write`).
* C117: a process symmetry that has no process in the topology of the synthesis but has some in the topology that is written is left out of `symm_cutoff`, so its processes run the part of the next symmetry, and processes of later symmetries run the wrong part or none (`C117_wrong_part`).
* C119: `fixup_pc_xns` restricts a process with any random write, but `xn_of_pc` only looks for random writes of puppet variables, so an action of a process that writes only a pure shadow variable randomly has steps that leave the assumption or are forbidden (`C119_shadow_random`).  A `permit` without any transition is the same as none.
* C120: for an odd number of processes `InstTwoColoringRing` reports that the number is even (src/inst.cc:184-186); that the synthesis should fail is right (`C120_two_coloring`).
* C121: the first instance of a parameter with several values keeps the text of all of them: `resize(1)` leaves `expression` as it is (src/opt.cc:249-251), `ReadProtoconFile` copies it (src/prot-xfile.leg:739-743) and `oput_protocon_constants` writes it, so for `-param N 3..4` a file with `constant N := (3,4);` is written (`C121_text`).
* C122: the options `-count-ones`, `-subck-known`, `-subck-match` and `-ppgck` of `biring` turn on the filter, but without `-echo` nothing is written for them (src/biring.cc:1015-1038, `C122_no_echo`).  A line that is too short ends the program without the answers for later lines.
