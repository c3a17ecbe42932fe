{"id": "C01", "title": "Backward reachability is exact and terminates", "statement": "For a transition formula and a target set, PFmla::pre_reach returns, after finitely many iterations, exactly the states from which some finite sequence of transitions (possibly empty) ends in the target set.", "quantifier": "every finite state space, every transition relation, every target set", "why_tests_cant": "The number of loop iterations grows with the longest shortest path; a test fixes one graph, while the claim is about all graphs including ones with cycles, unreachable parts and empty targets.", "anchors": ["src/pfmla.cc: PFmla::pre_reach"]}
{"id": "C02", "title": "Forward reachability is exact and terminates", "statement": "PFmla::img_reach returns, after finitely many iterations, exactly the states reachable from the initial set by finite sequences of transitions, and it is the mirror image of pre_reach on the reversed relation.", "quantifier": "every finite state space, transition relation and initial set", "why_tests_cant": "Same unbounded path lengths as backward reachability; the mirror claim relates two functions on every input.", "anchors": ["src/pfmla.cc: PFmla::img_reach"]}
{"id": "C03", "title": "closure_within returns the largest closed subset", "statement": "PFmla::closure_within(pf) returns a subset of pf that no transition leaves, and every other subset of pf that no transition leaves is contained in it. Equivalently it is the set of states all of whose reachable states lie in pf.", "quantifier": "every finite state space, transition relation, set pf, and every competing closed subset", "why_tests_cant": "Maximality quantifies over all subsets of the state space.", "anchors": ["src/pfmla.cc: PFmla::closure_within"]}
{"id": "C04", "title": "Cycle check on a closed set is exact", "statement": "When no transition leaves the assumed set, PFmla::cycle_ck terminates, returns true exactly when some state of the assumed set lies on a cycle, and the set it reports contains every state on a cycle and only states that are reachable from a cycle and can reach a cycle.", "quantifier": "every finite state space, transition relation and closed assumed set (including the default: all states)", "why_tests_cant": "The fixpoint depth is unbounded and exactness needs both directions on every graph; tests pick sample graphs.", "anchors": ["src/pfmla.cc: PFmla::cycle_ck"]}
{"id": "C05", "title": "Cycle check terminates for every assumed set", "statement": "PFmla::cycle_ck terminates for every transition relation and every assumed set, closed or not, and returns true exactly when a cycle exists among states the computation may visit.", "quantifier": "every finite state space, transition relation and assumed set", "why_tests_cant": "Non-termination can only be observed as a hang on a particular input; no finite test establishes that the loop ends for all sets, or that it never ends for a given one.", "anchors": ["src/pfmla.cc: PFmla::cycle_ck", "src/stabilization.cc: shadow_ck (call with lo_scc & shadow_live.pre())"]}
{"id": "C06", "title": "Reported layer count is the exact worst-case convergence time", "statement": "With an invariant given and no layer limit, on a closed assumed set without a cycle outside the invariant, the layer count returned by the cycle check minus one is the least n such that every execution of n steps from the assumed set ends in the invariant. With a limit m > 0 the check gives up exactly when the count would exceed m.", "quantifier": "every finite state space, transition relation, closed set, closed invariant and limit", "why_tests_cant": "Worst-case over all executions of unbounded length from all states.", "anchors": ["src/pfmla.cc: PFmla::cycle_ck (ret_nlayers, invariant)", "src/stabilization.cc: stabilization_ck (nlayers)"]}
{"id": "C07", "title": "Per-process cycle check is exact for arbitrary sets", "statement": "X::Fmlae::cycle_ck (process-wise relations) terminates for every assumed set, closed or not, and returns true exactly when there is a cycle all of whose states lie in the assumed set; the reported set contains every such cycle and each of its states has a predecessor and a successor in the set.", "quantifier": "every finite state space, number of processes, process relations and assumed set", "why_tests_cant": "Exactness over all graphs and all sets.", "anchors": ["src/xfmlae.cc: X::Fmlae::cycle_ck"]}
{"id": "C08", "title": "Probabilistic livelock check finds exactly the adversarial traps", "statement": "X::Fmlae::probabilistic_livelock_ck terminates and, without the scc output, computes the largest set X inside the assumed set in which each state enables some process having no progress transition there and none of whose transitions leaves X. It returns true exactly when such a nonempty set exists, and asking for the scc output does not change the boolean verdict.", "quantifier": "every finite state space, process family, assumed set and progress relation", "why_tests_cant": "Greatest-fixpoint maximality is over all subsets; the verdict-independence claim relates two call modes on every input.", "anchors": ["src/xfmlae.cc: X::Fmlae::probabilistic_livelock_ck"]}
{"id": "C09", "title": "Weak convergence check is exact (whole state space)", "statement": "weak_convergence_ck(xn, invariant) returns true exactly when every state has some execution reaching the invariant.", "quantifier": "every finite state space, relation and invariant", "why_tests_cant": "Paths of unbounded length from every state.", "anchors": ["src/stabilization.cc: weak_convergence_ck (2-argument form)"]}
{"id": "C10", "title": "Weak convergence check with assumption and layers is exact", "statement": "weak_convergence_ck(nlayers, xn, invariant, assumed) terminates; with no limit it returns true exactly when every assumed state has a path staying in the assumed set that ends in the invariant, and the layer count minus one is then the largest of the shortest distances to the invariant.", "quantifier": "every finite state space, relation, invariant and assumed set", "why_tests_cant": "Distances are unbounded, and the exact layer value is a max-min over all states and paths.", "anchors": ["src/stabilization.cc: weak_convergence_ck (4-argument form)"]}
{"id": "C11", "title": "Accepted direct protocols are self-stabilizing", "statement": "If stabilization_ck returns true for a protocol whose legitimate states are given directly (no shadow/puppet synthesis, non-probabilistic, general cycle check), then the assumed states are closed, the invariant within them is closed, and every maximal execution from an assumed state reaches the invariant after finitely many steps and stays there.", "quantifier": "every system, every assumed set, every execution (finite or infinite, any schedule)", "why_tests_cant": "Self-stabilization quantifies over all initial states and all infinite schedules.", "anchors": ["src/stabilization.cc: stabilization_ck, shadow_ck", "src/pfmla.cc: PFmla::cycle_ck"]}
{"id": "C12", "title": "Self-stabilizing direct protocols are accepted", "statement": "If a direct protocol without self-loops is self-stabilizing to a nonempty closed invariant and its behaviour in the invariant equals the specified behaviour, stabilization_ck returns true (when no layer limit is set).", "quantifier": "every system meeting the definition of self-stabilization", "why_tests_cant": "A false rejection would only show for the particular protocol tested.", "anchors": ["src/stabilization.cc: stabilization_ck, shadow_ck"]}
{"id": "C13", "title": "Accepted shadow/puppet protocols converge to the reported invariant", "statement": "If stabilization_ck returns true for a shadow/puppet system, then the invariant it computed is a subset of the specified invariant and assumption, is closed under the protocol, and every maximal execution from an assumed state eventually enters it and remains in it.", "quantifier": "every system, invariant style and scope, every execution", "why_tests_cant": "Quantifies over all initial states and all infinite schedules; the invariant is itself computed by a nested fixpoint.", "anchors": ["src/stabilization.cc: shadow_ck, stabilization_ck"]}
{"id": "C14", "title": "Within the reported invariant the protocol simulates the shadow behaviour", "statement": "Whenever shadow_ck returns true with an exact protocol, each protocol transition starting in the returned invariant either leaves all shadow variables unchanged or performs a transition of the specified shadow behaviour, and no infinite execution in the invariant avoids shadow changes forever unless it stays at states where no shadow transition is specified.", "quantifier": "every system, style and scope, every execution in the invariant", "why_tests_cant": "A refinement claim over every transition and every infinite execution.", "anchors": ["src/stabilization.cc: shadow_ck"]}
{"id": "C15", "title": "Failure explanations show a real cycle", "statement": "find_one_cycle, given a set in which each state has a successor in the set, terminates and returns a list of states that forms a cycle of the transition relation inside that set.", "quantifier": "every finite state space, relation and nonempty set with successors, every choice the state-picking backend makes", "why_tests_cant": "The walk length and the arbitrary state choice are unbounded and backend-dependent.", "anchors": ["src/xnsys.cc: find_one_cycle"]}
{"id": "C16", "title": "Synchronous transition relation has the right semantics", "statement": "The fully synchronous relation relates s to t exactly when t results from every enabled process taking one of its enabled actions at once and all others keeping their variables, with at least one process moving; the semi-synchronous relation does so for some nonempty subset of enabled processes.", "quantifier": "every number of processes, every action set, every state pair", "why_tests_cant": "Number of processes is unbounded and the relation covers all subsets of processes.", "anchors": ["src/xnsys.cc: Xn::Net::sync_xn"]}
{"id": "C17", "title": "Synthesis only returns verified protocols", "statement": "Whatever candidate order, heuristics, random choices and learned conflicts are used, when the search reports success the action list it returns passes the stabilization check on every system that had to be verified.", "quantifier": "every search run, every heuristic choice, every backtracking history, every list of systems", "why_tests_cant": "The search tree, the random choices and the conflicts learned are unbounded.", "anchors": ["src/search.cc: verify_solutions, AddStabilization"]}
{"id": "C18", "title": "A conflict database answers subset queries correctly", "statement": "After any sequence of add/trim-free operations, ConflictFamily::conflict_ck(S) returns true exactly when some conflict added so far is a subset of S.", "quantifier": "every sequence of added conflict sets and every query set", "why_tests_cant": "Subsumption pruning depends on the full history and on iteration order.", "anchors": ["src/conflictfamily.cc: add_conflict, add_conflicts, conflict_ck"]}
{"id": "C19", "title": "A conflict database keeps no redundant sets", "statement": "Starting from an empty database, after any sequence of additions, no stored conflict contains another one, and each stored conflict was added verbatim.", "quantifier": "every sequence of additions", "why_tests_cant": "History dependent.", "anchors": ["src/conflictfamily.cc: add_conflict"]}
{"id": "C20", "title": "Exchanging conflicts between search processes loses nothing", "statement": "The flat length-prefixed list produced by flush_new_conflicts, decoded with add_conflicts into any other database, makes every query that the sender's new conflicts answer positively also positive at the receiver; decoding then re-adding is the exact inverse of encoding. The first flush transmits all conflicts and later flushes exactly those stored since the last flush.", "quantifier": "every operation history at the sender, every state of the receiver", "why_tests_cant": "Histories and list contents are unbounded.", "anchors": ["src/conflictfamily.cc: flush_new_conflicts, all_conflicts, add_conflicts(const Table<uint>&)"]}
{"id": "C21", "title": "Forced-exclusion computation is exact", "statement": "conflict_membs(S, C) returns false exactly when S already contains a conflict, and otherwise marks exactly those candidates of C whose single addition to S would complete a conflict.", "quantifier": "every database reachable by operations, every S and C", "why_tests_cant": "All databases and all query sets.", "anchors": ["src/conflictfamily.cc: conflict_membs, superset_membs"]}
{"id": "C22", "title": "Trimming and unsatisfiability of conflict databases", "statement": "trim(n) never makes a query positive that was negative, keeps every conflict of size at most n (n>0), and is a no-op for n = 0; sat_ck returns false exactly when the empty conflict has been learned, in which case every query is positive.", "quantifier": "every operation history and bound n", "why_tests_cant": "History dependent.", "anchors": ["src/conflictfamily.cc: trim, sat_ck"]}
{"id": "C23", "title": "Unidirectional action numbering is a bijection", "statement": "UniAct and UniStep identifiers round-trip: converting an action (a,b,c) over domain size d to its id and back gives the same action, every id below d^3 (d^2) denotes exactly one triple (pair) in range.", "quantifier": "every domain size 0<d<=256 (values are bytes), every action, every id", "why_tests_cant": "All domain sizes.", "anchors": ["src/uni/uniact.hh: UniAct::of_id, UniStep::of_id, id_of2, id_of3"]}
{"id": "C24", "title": "Protocol action numbering is a bijection", "statement": "For any list of positive variable domains, the index of an action (its guard and assignment values, in mixed radix) determines those values and vice versa; the precondition index and image index derived from an action index agree with the guard and assignment parts.", "quantifier": "every number of variables and every domain size", "why_tests_cant": "Unbounded variable lists.", "anchors": ["src/xnpc.cc: PcSymm id_of/act_of", "src/xnsys.cc: Net::action_pre_index, action_img_index"]}
{"id": "C25", "title": "Symmetric-action representatives are sound", "statement": "representative_action_index always terminates and returns an index no larger than its argument, of an action obtained from the argument by permuting values of symmetric variables; applying it twice equals applying it once.", "quantifier": "every process symmetry and action", "why_tests_cant": "Arbitrary numbers of symmetric links and domain sizes.", "anchors": ["src/xnsys.cc: Net::representative_action_index", "src/xnpc.cc: PcSymm swap_vals"]}
{"id": "C26", "title": "Base64 protocol strings round-trip", "statement": "Printing a propagation function of domain size d with oput_b64_ppgfun and reading it with xget_b64_ppgfun yields the same domain size and the same function.", "quantifier": "every domain size d in 1..255 and every partial function on pairs", "why_tests_cant": "There are d^(d^2) functions; the decoder also has to recover d from the length alone.", "anchors": ["src/uni/unifile.cc: oput_b64_ppgfun, xget_b64_ppgfun"]}
{"id": "C27", "title": "Action sets and propagation functions are interchangeable", "statement": "For a deterministic self-disabling set of actions, uniring_actions_of(uniring_ppgfun_of(acts)) has exactly the same members as acts, sorted, and uniring_ppgfun_of inverts uniring_actions_of on every propagation function whose values are < d or undefined.", "quantifier": "every domain size and action set", "why_tests_cant": "All sizes.", "anchors": ["src/uni/unifile.cc: uniring_ppgfun_of, uniring_actions_of, uniring_actset_of"]}
{"id": "C28", "title": "Two-phase adjacency list stores exactly the announced arcs", "statement": "After announcing degrees, committing and adding the same multiset of arcs in any order, iterating over a node's arcs gives exactly the arcs added for it, never another node's. More generally, for any sequence of additions (within the announced degrees), deletions, clearings of a node and flushes, each node's arcs are those of an ordinary per-node list: additions append, del_arc removes exactly the copies of the given arc and keeps the order of the others.", "quantifier": "every number of nodes, every arc multiset, every order, every sequence of operations", "why_tests_cant": "Unbounded graph sizes and orders.", "anchors": ["src/uni/adjlist.hh: AdjList"]}
{"id": "C29", "title": "A livelock verdict comes with a real livelock", "statement": "If livelock_semick answers that a livelock exists for a deterministic self-disabling unidirectional ring protocol, there is a ring size and an infinite execution of the protocol on that ring.", "quantifier": "every protocol, every domain size, every bound given to the check", "why_tests_cant": "Ring size and execution are unbounded and must be derived from a periodic tiling.", "anchors": ["src/uni/livelock.cc: fill_livelock_ck, livelock_semick_rec, livelock_semick"]}
{"id": "C30", "title": "A no-livelock verdict holds for every ring size", "statement": "If livelock_semick answers that no livelock exists for a deterministic self-disabling unidirectional ring protocol, then for every ring size every execution of the protocol is finite.", "quantifier": "every ring size, every initial configuration, every schedule", "why_tests_cant": "Parameterised verification: infinitely many ring sizes.", "anchors": ["src/uni/livelock.cc: livelock_semick"]}
{"id": "C31", "title": "Synthesized unidirectional ring protocols always terminate", "statement": "For the protocol produced by unidirectionalRingProtocolGenerator, on a ring of any size N and under any schedule, every execution is finite, with at most N times M actions where M is the domain size.", "quantifier": "every legitimacy relation, ring size, initial configuration and schedule", "why_tests_cant": "Infinitely many ring sizes and schedules.", "anchors": ["src/uni/synthesize.cc: unidirectionalRingProtocolGenerator"]}
{"id": "C32", "title": "Synthesized unidirectional ring protocols preserve legitimate states", "statement": "On a ring of any size, a configuration in which every adjacent pair satisfies the legitimacy relation enables no action of the synthesized protocol (the protocol is silent there).", "quantifier": "every legitimacy relation, ring size and configuration", "why_tests_cant": "Infinitely many ring sizes.", "anchors": ["src/uni/synthesize.cc: unidirectionalRingProtocolGenerator"]}
{"id": "C33", "title": "Synthesized unidirectional ring protocols are deadlock-free outside legitimacy", "statement": "On a ring of any size, each configuration where some adjacent pair violates the legitimacy relation enables an action of the synthesized protocol, so with termination every execution ends legitimate.", "quantifier": "every legitimacy relation, ring size and configuration", "why_tests_cant": "Infinitely many ring sizes; the generator trims the relation by a heuristic graph search.", "anchors": ["src/uni/synthesize.cc: unidirectionalRingProtocolGenerator"]}
{"id": "C34", "title": "Isomorph rejection keeps one representative per class", "statement": "canonical_ck accepts an action list exactly when no renaming of values gives a lexicographically smaller sorted list; in particular at least one member of each isomorphism class is accepted.", "quantifier": "every domain size and every action set", "why_tests_cant": "d! renamings for every d.", "anchors": ["src/uni/canonical.cc: canonical_ck, permute_pc_act"]}
{"id": "C35", "title": "Bidirectional-ring isomorph rejection is exact", "statement": "The value permutations enumerated in the bidirectional-ring generator are all permutations of the domain, each exactly once, and canonical_set returns the same set for two sets of local configurations exactly when one is a renaming of the other; the returned set is itself a renaming of the argument.", "quantifier": "every domain size and set of local configurations", "why_tests_cant": "d! renamings for every d.", "anchors": ["src/biring.cc: canonical_set, permute_pc_config"]}
{"id": "C36", "title": "Bidirectional-ring configuration indices round-trip", "statement": "pc_config_of_enum_idx and enum_idx_of_pc_config are mutually inverse on their ranges.", "quantifier": "every domain size, index and configuration", "why_tests_cant": "All domain sizes.", "anchors": ["src/biring.cc: pc_config_of_enum_idx, enum_idx_of_pc_config"]}
{"id": "C37", "title": "Deadlock reports for rings are genuine", "statement": "If the local-deadlock analysis reports a deadlock, then there is a ring size and a ring configuration in which no process is enabled and at least one process is in an illegitimate local state.", "quantifier": "every local legitimacy predicate, action set and ring size", "why_tests_cant": "The ring size is unbounded and derived from a walk in a local configuration graph.", "anchors": ["src/deadfree.cc"]}
{"id": "C38", "title": "Deadlock analysis for rings is complete", "statement": "If some ring configuration of any size is silent and has a locally illegitimate process, the local-deadlock analysis reports a deadlock.", "quantifier": "every local legitimacy predicate, action set, ring size and configuration", "why_tests_cant": "Infinitely many ring sizes.", "anchors": ["src/deadfree.cc"]}
{"id": "C39", "title": "Integer expressions over state evaluate pointwise", "statement": "For each state, the value denoted by an IntPFmla built with +, -, *, /, %, power, min, max, negate equals the integer operation applied to the operand values at that state, and comparison operators yield exactly the states where the comparison holds; an operation that would divide by zero on some possible value is rejected.", "quantifier": "every pair of expressions, every state", "why_tests_cant": "All expressions and all states.", "anchors": ["src/pfmla.cc: IntPFmla::defeq_binop, cmp, negate, intmap_init_op"]}
{"id": "C40", "title": "Quantified predicates in specifications evaluate correctly", "statement": "forall, exists and unique predicates over an index range denote conjunction, disjunction and 'exactly one' of their bodies over the range, for every range including the empty one.", "quantifier": "every range, body and state", "why_tests_cant": "Unbounded range lengths; the evaluator builds 'unique' incrementally.", "anchors": ["src/prot-xfile.cc: ProtoconFileInterp::eval (forall/exists/unique)"]}
{"id": "C41", "title": "Constant-folding in formulas is transparent", "statement": "Formulas kept as symbolic constants true/false behave like the sets they denote: and, or, xor, minus, negation, implication, equivalence, subset, satisfiability and tautology tests give the same result as on sets.", "quantifier": "every sequence of operations on formulas, every mix of constant and non-constant operands", "why_tests_cant": "All operation sequences.", "anchors": ["src/pfmla.c", "src/pfmla.h"]}
{"id": "C42", "title": "Image and preimage respect constants", "statement": "pre(a,b) and img(a,b) denote the relational preimage and image also when an argument is the constant true or false.", "quantifier": "every relation and set, including constants", "why_tests_cant": "All argument combinations.", "anchors": ["src/pfmla.c: pre1_PFmla, img1_PFmla"]}
{"id": "C43", "title": "Deadlock ranking is exact", "statement": "RankDeadlocksMRV partitions the given deadlock states by the number of candidate actions that resolve them: a state is in bucket i exactly when i candidates have a transition from it.", "quantifier": "every set of deadlocks and every candidate list", "why_tests_cant": "Unbounded candidate lists; incremental shifting of buckets.", "anchors": ["src/synthesis.cc: RankDeadlocksMRV"]}
{"id": "C44", "title": "Pairwise action compatibility is symmetric", "statement": "coexist_ck(a,b) = coexist_ck(b,a) for all actions, and it holds only if the two actions together are deterministic and self-disabling for their process when those options are set.", "quantifier": "every pair of actions and every system", "why_tests_cant": "All action pairs in all topologies.", "anchors": ["src/synthesis.cc: coexist_ck"]}
{"id": "C45", "title": "Interactive simulation offers exactly the successors", "statement": "The list of options shown for a state contains each distinct successor state inside the current mask other than the state itself exactly once and nothing else.", "quantifier": "every transition relation and state, every choice of the state-picking backend", "why_tests_cant": "Arbitrary relations and variable orders.", "anchors": ["src/interactive.cc: next_options"]}
{"id": "C46", "title": "UDP processes act only with permission", "statement": "A process of the UDP implementation changes its state only when every neighbour channel has acknowledged the current sequence number, and immediately afterwards it is not enabled and uses fresh sequence numbers on all channels.", "quantifier": "every sequence of packets, timeouts, losses, duplicates and reorderings", "why_tests_cant": "All network behaviours.", "anchors": ["src/udp-impl/protocol.c: CMD_act, CMD_enable, CMD_disable, handle_recv, all_adj_acknowledged"]}
{"id": "C47", "title": "No two neighbouring UDP processes act on stale views", "statement": "Under message loss, duplication and reordering with sequence numbers that are never reused, two neighbouring processes are never both allowed to act at the same time.", "quantifier": "every interleaving and every network behaviour", "why_tests_cant": "All network behaviours.", "anchors": ["src/udp-impl/protocol.c: handle_recv, handle_timeout, update_enabled"]}
{"id": "C48", "title": "Ring classification is correct", "statement": "When the BDD-based classifier reports a livelock of some period or silence up to the given ring size, the corresponding rings really have, respectively do not have, infinite executions.", "quantifier": "every protocol, ring size bound and period", "why_tests_cant": "All protocols and executions.", "anchors": ["src/uni/classify.cc: bdd_classify"]}
{"id": "C49", "title": "Ring sweep cycle check agrees with the general cycle check", "statement": "For deterministic self-disabling protocols on unidirectional rings and a closed assumed set, X::Fmlae::uniring_cycle_ck terminates and returns true exactly when a cycle exists in the assumed set.", "quantifier": "every ring size, protocol and closed assumed set", "why_tests_cant": "All ring sizes and protocols.", "anchors": ["src/xfmlae.cc: X::Fmlae::uniring_cycle_ck"]}
{"id": "C50", "title": "Pruning by the stabilization check is sound", "statement": "If some complete protocol xn with lo <= xn <= hi passes the stabilization check, then the check of the partial protocol with committed transitions lo and possible transitions hi does not reject (so synthesis never discards a branch that contains a solution), and the invariant it reports contains that of xn.", "quantifier": "every finite state space, every lo/xn/hi, every invariant style, scope, behaviour and layer option", "why_tests_cant": "Quantifies over all completions of a partial protocol.", "anchors": ["src/stabilization.cc: stabilization_ck, shadow_ck"]}
{"id": "C51", "title": "The stabilization check always completes", "statement": "stabilization_ck terminates and none of its assertions fails, for every protocol, including protocols that are not closed, deadlock or livelock.", "quantifier": "every finite system without random variables and every option setting (general cycle check)", "why_tests_cant": "Termination of nested fixpoint loops over all inputs.", "anchors": ["src/stabilization.cc: stabilization_ck, shadow_ck"]}
{"id": "C52", "title": "Silence is enforced when demanded", "statement": "If silent stabilization is demanded, an accepted protocol has no infinite execution from the assumed states; if the invariant style is silent, no transition is enabled in the reported invariant.", "quantifier": "every finite system and protocol", "why_tests_cant": "All executions of all protocols.", "anchors": ["src/stabilization.cc: shadow_ck"]}
{"id": "C53", "title": "Randomized protocols are accepted only if they converge with positive probability under every scheduler", "statement": "For systems with randomly assigned variables, the check terminates, and for an accepted protocol the reported invariant is nonempty, closed and, from each assumed state and against every scheduler, reachable by some random outcomes within as many steps as there are states.", "quantifier": "every finite system, every protocol, every history-dependent scheduler", "why_tests_cant": "All adversarial schedulers.", "anchors": ["src/stabilization.cc: stabilization_ck", "src/xfmlae.cc: probabilistic_livelock_ck"]}
{"id": "C54", "title": "Accepted shadow/puppet protocols realise the whole specified behaviour", "statement": "Unless the invariant may shrink (scope future), each shadow view of the specified invariant occurs in the reported invariant and each specified shadow transition is performed by some protocol transition inside it.", "quantifier": "every finite system and protocol", "why_tests_cant": "All systems and projections.", "anchors": ["src/stabilization.cc: shadow_ck"]}
{"id": "C55", "title": "The stabilization check with -uniring agrees with the general check", "statement": "On a unidirectional ring with a deterministic self-disabling protocol whose invariant is stated directly, stabilization_ck with the uniring option terminates without assertion failure and accepts exactly the protocols that self-stabilize with the demanded behaviour (the same protocols as without the option).", "quantifier": "every ring size >= 2, every domain, every such protocol (processes may have different rules), every invariant and closed assumption", "why_tests_cant": "All ring sizes and protocols.", "anchors": ["src/stabilization.cc: stabilization_ck", "src/xfmlae.cc: X::Fmlae::uniring_cycle_ck"]}
{"id": "C56", "title": "Impossible actions are the singleton conflicts", "statement": "After any history of additions and trims from the empty database, each member of impossible_set was announced as a singleton conflict, and unless the empty conflict was announced the members are exactly the announced singletons.", "quantifier": "every history of additions and trims", "why_tests_cant": "Histories are unbounded.", "anchors": ["src/conflictfamily.cc: add_conflict, trim"]}
{"id": "C57", "title": "Conflict databases survive being written and read", "statement": "A conflict database written with oput and read with xget stores the same conflicts, each once, answers each query alike, and has the stored singletons as impossible actions.", "quantifier": "every database, every previous content of the object read into", "why_tests_cant": "All databases.", "anchors": ["src/conflictfamily.cc: oput, xget"]}
{"id": "C58", "title": "Conflict size statistics are exact", "statement": "Entry k of the table computed by conflict_sizes is the number of stored conflicts with k members.", "quantifier": "every database", "why_tests_cant": "All databases.", "anchors": ["src/conflictfamily.cc: conflict_sizes"]}
{"id": "C59", "title": "A livelock within the search bound is always found", "statement": "livelock_semick answers Yes exactly when some doubly periodic block of tiles of the protocol is at most limit wide and at most limit high, and the row and column it returns are the first row and column of such a block.", "quantifier": "every protocol table, every domain size, every limit", "why_tests_cant": "The search prunes values and diagonals in a particular order; a missed block would show only for particular protocols.", "anchors": ["src/uni/livelock.cc: livelock_semick, livelock_semick_rec, fill_livelock_ck"]}
{"id": "C60", "title": "Livelock explanations are real conflicts", "statement": "If every transition belongs to one of the given actions, the actions returned by find_livelock_actions are a subset of the given ones, and any protocol that contains them still has an infinite execution through a state outside the invariant (a livelock if the invariant is closed), so recording them as a conflict never excludes a solution.", "quantifier": "every finite system, every set of actions, every component with successors and predecessors inside it that is not within the invariant, every choice of states", "why_tests_cant": "A wrong explanation silently removes solutions from the search space.", "anchors": ["src/xnsys.cc: find_livelock_actions, find_one_cycle", "src/stabilization.cc: stabilization_ck"]}
{"id": "C61", "title": "All systems of a synthesis agree on the chosen actions", "statement": "After every successful revise_actions or pick_action all instances of the parameterized system hold the same actions without repetition, among them the actions given at the start and all picks, and the assertion that they have equally many actions never fails.", "quantifier": "every number of systems, every inferred addition and deletion, every order, every rebuilding from the base", "why_tests_cant": "Inferences of one system are propagated to the others in data dependent rounds.", "anchors": ["src/synthesis.cc: PartialSynthesis::revise_actions, pick_action"]}
{"id": "C62", "title": "Incremental ranking of deadlocks equals ranking from scratch", "statement": "Given a correct ranking of the deadlocks, ReviseDeadlocksMRV with any added and removed candidate actions completes and leaves exactly the ranking of the deadlocks that the added actions do not resolve by the remaining candidates.", "quantifier": "every finite system, every ranking, every disjoint sets of added and removed candidates", "why_tests_cant": "Depends on the order in which states move between ranks.", "anchors": ["src/synthesis.cc: ReviseDeadlocksMRV"]}
{"id": "C63", "title": "Interactive steps follow the transition relation", "statement": "The command step k visits a path of at most k transitions inside the mask, shorter only where no transition is offered; randomize leaves the simulator in a state of the mask whenever the mask is not empty, and can reach every state of it.", "quantifier": "every system, mask, state, number of steps, random numbers, and order of variables", "why_tests_cant": "All systems and random numbers.", "anchors": ["src/interactive.cc: interactive, randomize_state"]}
{"id": "C64", "title": "Expressions mean what they say", "statement": "When evaluation of a predicate or integer expression of a specification succeeds and no quantifier reuses a bound name, the result is, in every state, the value given by the usual reading of the expression, and the index bindings are the same as before.", "quantifier": "every expression, every environment of constants, variables, predicates, let bindings and process, every state", "why_tests_cant": "Expressions nest arbitrarily and evaluation works with tables of values and a mutable map of indices.", "anchors": ["src/prot-xfile.cc: ProtoconFileInterp::eval, eval_int, eval_vbl, lookup_pfmla, lookup_int, lookup_vbl"]}
{"id": "C65", "title": "Formula handles own their memory", "statement": "Every operation on formulas whose operands are constants or belong to one context succeeds, changes no handle but its destination, never uses a freed object and leaves no object shared or lost, also when the destination is one of the operands; formulas of different contexts are rejected.", "quantifier": "every operation, every sequence of operations, every table of backend functions, every aliasing of handles", "why_tests_cant": "Use after free depends on aliasing and on which operand is constant.", "anchors": ["src/pfmla.c: pre_op2_PFmla, wipe1_PFmla and all operations", "src/pfmla.h: lose_PFmla, cons_PFmla"]}
{"id": "C66", "title": "Picking a state and comparing variables", "statement": "state_of_PFmla and pick_pre_PFmla on a satisfiable formula give the lexicographically smallest state of it; eq and eqc are equality of values, img_eq and img_eqc assign modulo the domain size of the assigned variable.", "quantifier": "every formula, list of variables, and domain sizes", "why_tests_cant": "All formulas and domain sizes.", "anchors": ["src/pfmla.c: pick_pre_PFmla, state_of_PFmla, eq_PFmlaVbl, eqc_PFmlaVbl, img_eq_PFmlaVbl, img_eqc_PFmlaVbl, img_eq_img_PFmlaVbl"]}
{"id": "C67", "title": "Closed walks in a digraph", "statement": "cycle_ck_from ends for every digraph, succeeds exactly when the node lies on a closed walk, and then leaves such a walk on the stack, starting with the node.", "quantifier": "every digraph and every starting node", "why_tests_cant": "All digraphs; a depth-first search that shares its visited set can miss cycles only for particular orders of arcs.", "anchors": ["src/uni/livelock.cc: cycle_ck_from"]}
{"id": "C68", "title": "Excluded actions", "statement": "trim_coexist removes from the candidates exactly the actions that are enabled together with the given one, enable it or are enabled by it in the same process, or form a livelock of two actions with it (with nw_disabling also those excluded by the own value); the relation is symmetric.", "quantifier": "every domain size up to 256, every set of candidates, every pair of actions", "why_tests_cant": "All pairs of actions for all domain sizes.", "anchors": ["src/uni/generate.cc: trim_coexist", "src/uni/livelock.cc: subtract_action_mask, action_mask_overlap_ck"]}
{"id": "C69", "title": "Tile continuations", "statement": "A node of the digraph of tile continuations lies on a cycle exactly when three rows of tiles that repeat horizontally pass through it; every action of a periodic tiling lies on such a cycle, and in the over-approximation this holds for every tiling made of some of the actions, so that the search discards only action sets with an action that is in no periodic tiling.", "quantifier": "every domain size up to 256, every set of actions, every periodic tiling of any size", "why_tests_cant": "Periodic tilings of unbounded size.", "anchors": ["src/uni/livelock.cc: make_tile_cont_digraph, make_overapprox_tile_cont_digraph", "src/uni/generate.cc: init_ppgfun"]}
{"id": "C70", "title": "Livelocks that start with a given row", "statement": "Started with a row of tiles closed to a circle, guided_livelock_ck finds out whether a periodic tiling of this width starts with the row and repeats after at most limit+1 rows; the set it returns consists of actions of one such tiling and contains enough of them for a livelock.", "quantifier": "every propagation function, every closed row, every limit", "why_tests_cant": "All propagation functions and rows; the set returned is used to discard candidates silently.", "anchors": ["src/uni/livelock.cc: guided_livelock_semick_rec, guided_livelock_ck", "src/uni/generate.cc: periodic_leads_semick"]}
{"id": "C71", "title": "The search for ring protocols prints exactly what it should", "statement": "With one limit for period and propagations and no limit of depth, searchit ends and prints, each once, exactly the functions whose actions do not exclude each other, whose first action is named in order, whose actions all lie in repeating bands of tiles, which canonical_ck accepts and for which livelock_semick can tell neither a livelock nor its absence.", "quantifier": "every domain size from 3 to 256, every limit, every choice of the options of the search", "why_tests_cant": "The search space is exponential and a wrongly discarded candidate leaves no trace in the output.", "anchors": ["src/uni/generate.cc: searchit, recurse, periodic_leads_semick, trim_coexist"]}
{"id": "C72", "title": "The search misses no class of isomorphic protocols", "statement": "Under the same options every protocol of the search space that has an infinite execution in some ring but no periodic tiling up to the limit, and whose actions all lie in bands, is isomorphic to a printed one; of a protocol with a periodic tiling, but none up to the limit, the actions of the tiling are printed up to isomorphism.", "quantifier": "every protocol of the search space, every domain size from 3 to 256, every ring size, every limit", "why_tests_cant": "Symmetry breaking prunes at every level; a class lost by an interaction of two prunings is invisible.", "anchors": ["src/uni/generate.cc: searchit, recurse", "src/uni/canonical.cc: canonical_ck"]}
{"id": "C73", "title": "Livelocks are periodic tilings", "statement": "A self-disabling propagation function has an infinite execution on some ring exactly when its actions tile a torus, so livelock_semick answers Yes for some limit exactly when some ring of some size has an infinite execution.", "quantifier": "every propagation function over every domain, every ring size, every execution", "why_tests_cant": "Infinitely many ring sizes and limits; a livelock may need an arbitrarily large ring.", "anchors": ["src/uni/livelock.cc: livelock_semick"]}
{"id": "C74", "title": "The reductions from Wang tiles to ring protocols are exact", "statement": "Both reductions keep whether the tiles tile a torus; check_constraints accepts their result exactly when a tile is determined by its west and north colour; and the resulting protocol has an infinite execution on some ring exactly when the Wang tiles tile a torus. The second reduction gives commutative actions.", "quantifier": "every list of Wang tiles whose reduction has at most 255 values, every ring size", "why_tests_cant": "Whether Wang tiles tile a torus is undecidable, so no test can compare the two sides.", "anchors": ["src/uni/aperiodic.cc: LookupSymId, ReduceToActionTiles, ReduceToCommutativeTiles, check_constraints"]}
{"id": "C75", "title": "The aperiodic protocol terminates and the check cannot tell", "statement": "The tile set of aperiodic.cc tiles squares of every size but no torus. The protocol printed, with and without -commutative, terminates from every state on every ring size, and livelock_semick answers May for it for every limit; the table of tilings_and_patterns_aperiodic_uniring is the first of the two.", "quantifier": "every ring size, every initial state, every execution, every limit", "why_tests_cant": "The source says: always terminates from any initial state on any ring size, but it is quite hard to prove.", "anchors": ["src/uni/aperiodic.cc: TileSet, main", "src/uni/unifile.cc: tilings_and_patterns_aperiodic_uniring", "src/uni/generate.cc: TestKnownAperiodic"]}
{"id": "C76", "title": "The weak convergence check for unidirectional rings is exact", "statement": "uniring_weak_convergence_ck terminates and answers true exactly when every assumed state can reach the invariant. (False of the code: for self-disabling processes it decides freedom of deadlocks and counts at most two layers; it is right when no cycle lies outside the invariant.)", "quantifier": "every ring size, every domain, every protocol, every invariant and assumed set", "why_tests_cant": "The wrong answers need rings whose states cannot converge though nothing is deadlocked, or processes that act twice in a row; the loop has no bound.", "anchors": ["src/xfmlae.cc: X::Fmlae::uniring_weak_convergence_ck", "src/stabilization.cc: stabilization_ck"]}
{"id": "C77", "title": "Undirected reachability and transitive closures are exact", "statement": "UndirectedReachability returns exactly the states connected by transitions in either direction. transitive_closure, and X::Fmlae::transitive_closure with or without initial states, relate exactly the pairs joined by one or more transitions. All terminate.", "quantifier": "every finite relation, every list of processes, every set of initial states", "why_tests_cant": "All relations; the closure by processes mixes their steps in an order that only some paths exercise.", "anchors": ["src/pfmla.cc: UndirectedReachability, transitive_closure", "src/xfmlae.cc: X::Fmlae::transitive_closure"]}
{"id": "C78", "title": "The search for strongly connected components is exact", "statement": "SCC_Find ends without taking the top of an empty stack, answers true exactly when two different states lie on a common cycle inside the given set, and with ret_cycles adds exactly the states of such cycles.", "quantifier": "every relation, every set, every choice of states by pick_pre", "why_tests_cant": "The recursion splits the set and the skeleton in ways that depend on the choice of states; a lost node shows up only for particular graphs.", "anchors": ["src/pfmla.cc: SCC_Find, Skel_Forward"]}
{"id": "C79", "title": "Synthesis for one or two systems finds a solution exactly when there is one", "statement": "For direct synthesis (no pure shadow variables, closed style, no unidirectional ring treatment, no layer limit) of one or two systems with max_depth and max_height 0, the synthesizer ends without a failed Claim. If it reports actions, they are given or candidates, contain the given ones, contain no declared conflict and no rejected action, and make every system stabilize, silently if asked, with no deadlock where a move is required. If it reports failure, no set of candidates solves the problem. (False for three systems and for the default max_height 3; the reported actions may contain a pair that does not coexist.)", "quantifier": "all systems with finite state spaces, all actions, candidates, declared conflicts and given actions, every choice of the next action, every order of the conflict database, with and without prep_conflicts, directly_add_conflicts, no_conflict and a limit on the size of conflicts", "why_tests_cant": "Completeness speaks about all sets of actions and all search orders; a wrong deletion only shows in problems whose every solution needs the deleted action.", "anchors": ["src/search.cc: AddStabilization, verify_solutions", "src/synthesis.cc: QuickTrim, PartialSynthesis::add_small_conflict_set, check_forward, revise_actions_alone, revise_actions, pick_action, SynthesisCtx::add"]}
{"id": "C80", "title": "The synthesizer only learns valid conflicts", "statement": "In the setting above, whenever the synthesizer ends, with or without a solution, every set in the conflict database is contained in no solution.", "quantifier": "as above", "why_tests_cant": "An invalid conflict does no harm until a later search, another process that receives it, or a restart needs exactly that set.", "anchors": ["src/synthesis.cc: PartialSynthesis::add_small_conflict_set, revise_actions_alone, SynthesisCtx::add", "src/search.cc: AddStabilization", "src/conflictfamily.cc: ConflictFamily::add_conflict"]}
{"id": "C81", "title": "The next action resolves a most constrained deadlock", "statement": "If some instance has a candidate then PickActionMRV returns true and a candidate, whatever the random numbers, method, priority policy and randomization are; no Claim fails and no null pointer, division by zero or access out of bounds occurs. Unless the method is fully random, the action resolves a deadlock such that no resolvable deadlock of any instance (that is not only verified) has fewer candidates. Of actions that differ in random values only the lowest remains. Hence C79 and C80 hold for PickActionMRV itself.", "quantifier": "all instances whose deadlocks are ranked as C43 and C62 say, all numbers of systems, all random numbers in range (for LCVHeavyPick: if trial revisions add an action and no candidate)", "why_tests_cant": "Random choices, ten methods and several systems multiply; a wrong rank only makes the search slow or, when nothing is picked, incomplete.", "anchors": ["src/synthesis.cc: PickActionMRV"]}
{"id": "C82", "title": "Every method of choice keeps the best candidates in its own sense", "statement": "For a rank that has candidates, pick_action_candidates returns a nonempty set of candidates of this rank. With pick_back_reach only those remain (if any) that lead a deadlock of this rank to a state that can reach the invariant. Priorities keep the actions of least number before or after the method. Lex: all resolve one common deadlock, among them the least candidate. Greedy: greatest sum of ranks. Slow greedy: most rivals. LCV lite: fewest candidates left over the ranks. LCV heavy, LCV jank, conflict, quick: the extreme values they define.", "quantifier": "every method except the fully random one, every policy, every finite system, all candidates and deadlocks", "why_tests_cant": "A heuristic that prefers the wrong end still yields solutions; nothing in the output shows it.", "anchors": ["src/synthesis.cc: pick_action_candidates"]}
{"id": "C83", "title": "candidate_actions sorts out exactly the actions that can be in no solution or never move", "statement": "Without shadow variables, and with a legitimate state and some state outside of the invariant: an action (its representative, with a process and a transition) is rejected exactly if it is forbidden or not permitted, only repeats what it reads, leaves the considered or the legitimate states, or, unless the style is closed, does something in a legitimate state that is not in the shadow protocol; of the others the ones that move in no considered state are dropped and the rest are the candidates. The lists are ascending. The result is true exactly if there is a candidate. With shadow variables too, no candidate is refused, leaves the considered states or (direct scope) breaks the legitimate ones, and each can move.", "quantifier": "all systems with finite state spaces, all actions, forbidden and permitted transitions, styles and behaviors", "why_tests_cant": "A wrongly rejected action only matters for protocols that need it, and then the tool merely reports failure.", "anchors": ["src/xnsys.cc: candidate_actions"]}
{"id": "C84", "title": "Candidates and search together are complete", "statement": "For one or two systems as in C79, each with a state in which a move is required (or with nothing but legitimate states and no refusals): the synthesizer including candidate_actions ends; it reports a set of actions that answers the problem as the user poses it (given actions used, none refused, no declared conflict, all systems stabilize), or no set of coexisting actions at all answers it. (Fails if nothing needs to be done, if all states are legitimate and the shadow protocol moves, and refusals are ignored in a system whose states are all legitimate.)", "quantifier": "as in C79 and C83; all sets of actions, not only candidates", "why_tests_cant": "Completeness over all protocols and the interplay of the filter with the search cannot be sampled.", "anchors": ["src/xnsys.cc: candidate_actions", "src/synthesis.cc: SynthesisCtx::add", "src/search.cc: AddStabilization"]}
{"id": "C85", "title": "Parallel search reports only correct protocols and learns only valid conflicts", "statement": "In every reachable state of the threads of stabilization_search (backtracking task): no Claim has failed; solution_found is set exactly if a solution was reported, and the returned actions are those reported last; every reported solution contains the given actions, consists of given actions and candidates, and makes every system stabilize as required; it contains no declared conflict and no rejected action if max_conflict_sz is zero or no smaller than those; no conflict in the shared database or in a thread's own is contained in a solution, except in one that contains a reported solution when solution_as_conflict is set.", "quantifier": "one or two systems as in C79 (any max_depth and max_height), any number of threads, every interleaving of the parts of their loops, a signal at any time, all options try_all, solution_as_conflict, ntrials", "why_tests_cant": "Interleavings of threads with restarts, merging of databases and signals cannot be enumerated by tests; an invalid merged conflict only shows much later in another thread.", "anchors": ["src/search.cc: stabilization_search", "src/conflictfamily.cc: ConflictFamily::add_conflicts, trim"]}
{"id": "C86", "title": "Parallel search stops only for a reason", "statement": "In every reachable state, if the done flag is set then there was a signal, or a solution was reported and try_all is not set, or every solution of the problem contains a reported one with solution_as_conflict set (so none exists if nothing was reported).", "quantifier": "as in C85", "why_tests_cant": "A flag set too early by one of many threads looks like a correct negative answer.", "anchors": ["src/search.cc: stabilization_search, set_done_flag"]}
{"id": "C87", "title": "Parallel search with restarts ends", "statement": "Without limits on depth and on the size of conflicts, if some system takes part in conflicts and try_all comes with solution_as_conflict, every run of N threads has at most 5 N (2^a + 3) + 1 steps where a is the number of given actions and candidates, and no thread is stuck before its end. This holds for every max_height. (Fails with max_depth: the loop can go on forever.)", "quantifier": "as in C85, all runs", "why_tests_cant": "Termination of unboundedly many restarts under every schedule is not observable in finite tests.", "anchors": ["src/search.cc: stabilization_search, AddStabilization"]}
{"id": "C88", "title": "Parallel search with restarts is complete for every max_height", "statement": "In the setting of C87 with no limit on the trials: when all threads have ended without a signal, a solution has been found if there is one; with try_all every solution contains a reported one and no reported solution contains an earlier one. So restarts make up for the choices that a search with the default max_height forgets.", "quantifier": "as in C87", "why_tests_cant": "Completeness speaks about all sets of actions, all schedules and all search orders.", "anchors": ["src/search.cc: stabilization_search, AddStabilization"]}
{"id": "C89", "title": "Distributed search reports only correct protocols and exchanges only valid conflicts", "statement": "In every reachable state of the processes of the MPI driver: no Claim has failed; no conflict that a process knows or has sent to the others is contained in a solution; the actions that a process returns or reports contain the given actions, consist of given actions and candidates, make every system stabilize as required and contain no declared conflict and no rejected action. The validity of received conflicts is a consequence, not an assumption.", "quantifier": "one or two systems as in C79 (any max_depth and max_height), any number of processes, every interleaving, any loss, repetition and reordering of messages sent also in the middle of a search, a signal at any time, all options try_all, solution_as_conflict, ntrials", "why_tests_cant": "Message timing across processes cannot be enumerated; one invalid conflict spreads and silently excludes solutions everywhere.", "anchors": ["src/main-mpi.cc: stabilization_search, done_ck", "src/search.cc: AddStabilization"]}
{"id": "C90", "title": "Every process of the distributed search ends", "statement": "Without try_all and without limits on depth and size of conflicts, if some system takes part in conflicts, a process makes at most 4 (2^a + 3) steps of its loop where a is the number of given actions and candidates, whatever other processes do and whether or not any message arrives. With a limit on the trials it makes at most 4 (ntrials + 3) steps, whatever the other options. No process is stuck before its end.", "quantifier": "as in C89, all runs, each process separately", "why_tests_cant": "Termination under every schedule and every pattern of message loss is not observable in finite tests.", "anchors": ["src/main-mpi.cc: stabilization_search"]}
{"id": "C91", "title": "The processes of the distributed search agree on who reports", "statement": "From solution_found and solution_nlayers_sum of all processes the final reductions compute the same number in every process: -1 exactly if no process has found a solution, otherwise the lowest number of a process that has found one with the fewest layers, if every solution that was found has a positive number of layers. (Fails for a solution with number of layers 0: the result is -1.)", "quantifier": "any number of processes, all results", "why_tests_cant": "A tie or an unusual combination of results would make processes disagree or lose a solution; the number of combinations is unbounded.", "anchors": ["src/main-mpi.cc: stabilization_search (MPI_Allreduce)"]}
{"id": "C92", "title": "Distributed search is complete for every max_height", "statement": "Without try_all, without a limit on the trials and without a signal: as soon as one process has ended, some process has found a solution or there is none; the number computed at the end is -1 only if there is no solution and otherwise names a process whose returned actions are correct in the sense of C89. (Fails with try_all: then no process ever ends if there is a solution.)", "quantifier": "as in C89", "why_tests_cant": "Completeness speaks about all sets of actions, all schedules and all message patterns.", "anchors": ["src/main-mpi.cc: stabilization_search", "src/search.cc: AddStabilization"]}
{"id": "C93", "title": "An expression written to the output file is read back as the same expression", "statement": "If a text is read as an expression, then the text that string_expression writes for the expression is read as the same expression again (same tree, same kind), whatever closing bracket, comma or semicolon follows it. (Fails for == between truth values inside of && , || , ==> or <=>: it is written as <=>, which binds differently, and the file written means something else.)", "quantifier": "all texts, all expressions of any depth, any set of known predicates", "why_tests_cant": "Precedence and greedy matching interact; the number of nestings is unbounded and a wrong bracket only shows in a file read later.", "anchors": ["src/prot-xfile.cc: ProtoconFile::string_expression", "src/prot-xfile.leg: Expr, Quantify, BiImplication, Comparison, Sum, Value"]}
{"id": "C94", "title": "The reading of an expression ends for every text", "statement": "For every text the rule Expr gives a result with a depth of recursion of at most 16 times the length of the text plus 16: either it does not match, or it matches and consumes at least one character.", "quantifier": "all texts, any set of known predicates", "why_tests_cant": "Left recursion or an empty repetition in a parsing expression grammar only shows on particular texts.", "anchors": ["src/prot-xfile.leg: Expr"]}
{"id": "C95", "title": "An action written to the output file is read back as the same action", "statement": "Let the process read at least one variable through its accesses and let its references to variables be well formed expressions. Then the text written for an action is read by the grammar as one action with exactly this guard (the conjunction of the equations of the readable variables, in order) and exactly the assignments that oput_protocon_pc_act decides to write, whatever follows it; the section puppet: of a process with at least one action is read as the list of its actions, in order, up to its semicolon. (Fails for a process without readable variables: its actions are written without a guard and cannot be read.)", "quantifier": "all processes, all accesses and roles, all actions, all references, all texts that may follow", "why_tests_cant": "The number of processes, accesses and reference expressions is unbounded; a text that is read differently only shows when the file is used later.", "anchors": ["src/prot-ofile.cc: oput_protocon_pc_act, oput_protocon_pc_acts", "src/prot-xfile.leg: Action, ActionList, AssignmentList"]}
{"id": "C96", "title": "An action read back from the output file has the same transitions", "statement": "Let the references of a process mean its variables, let no constant have the name of a variable, let no variable be written through two accesses, and let no variable be random. Then parse_action applied to what is read from the text written for an action gives exactly the transitions that xn_of_pc gives for the action if the text contains an assignment; otherwise xn_of_pc gives none and parse_action only self-loops of the written variables. (Fails if a process writes one variable through two accesses, and if a constant has the name of a variable.)", "quantifier": "all processes with direct or puppet, shadow, write-only, effect accesses, all actions, all domains and numbers of variables", "why_tests_cant": "The two functions compute the relation in different ways from different representations; agreement has to hold for every action of every process.", "anchors": ["src/prot-xfile.cc: ProtoconFile::parse_action", "src/prot-ofile.cc: oput_protocon_pc_act", "src/xnsys.cc: Net::xn_of_pc"]}
{"id": "C97", "title": "The actions of a process are found from its transitions", "statement": "For a process where nothing is random and whose variables are distinct (or where all accesses to a variable accessed twice are readable and cannot keep its value), Pc::actions ends whatever states are chosen. It gives valid actions, each once, and they describe a pair of states (guard on the readable variables, values of the written variables, where the value after the last stands for any value) exactly if the process has a transition from a closed state that agrees on these variables. If no access has a value for keeping (wdomsz is not domsz+1), the actions found are exactly the valid actions that describe some transition, and PcSymm::actions gives their numbers for the first process with distinct variables, or for all processes if there is none. (Fails for a process with two accesses to one variable of which one is not readable.)", "quantifier": "all processes, all sets of transitions, all choices of states by the decision diagrams", "why_tests_cant": "The loops pick arbitrary states from formulas and remove cubes; a wrong cube only shows for particular relations.", "anchors": ["src/xnpc.cc: Pc::actions, PcSymm::actions, init_representative"]}
{"id": "C98", "title": "A protocol written to a file has the same actions when it is read", "statement": "Let every written variable of a process be readable, nothing be random, the variables of the process distinct, and the references as in C96. Then the section puppet: written for actions that each have a transition is read, its actions are evaluated by parse_action and added to puppet_xn, and Pc::actions finds exactly the actions written that have a transition from a state of closed_assume, each once. Likewise for any set of transitions that is the union of xn_of_pc of valid actions without values for keeping. (Fails with write-only variables: actions that assign every value of such a variable come back as one action that keeps it, which has no transitions.)", "quantifier": "all processes, all sets of actions, all choices of states", "why_tests_cant": "Text, grammar, evaluation and extraction are four separate algorithms over unbounded protocols; only sample files can be tested.", "anchors": ["src/prot-ofile.cc: oput_protocon_pc_acts", "src/prot-xfile.leg: Action", "src/prot-xfile.cc: parse_action, add_action", "src/xnpc.cc: Pc::actions"]}
{"id": "C99", "title": "The style of the invariant survives a file", "statement": "The statement that the program writes for the invariant of the system or of a process is read back with the same style, scope and expression, whatever follows, and so is the behaviour within the invariant. A file whose statements have one style and scope is accepted with them; one with two different ones is not. The command line option accepts exactly the written form of a style, spaces aside, for the eight styles with an option. (Fails for the style closed with the scopes shadow and future, which are written in a form that no rule accepts.)", "quantifier": "all styles, scopes and behaviours, all expressions read from a file whose printed form keeps them, all texts that follow", "why_tests_cant": "Grammar, printer and option table are three separate lists of alternatives whose order matters.", "anchors": ["src/prot-xfile.leg: LegitMode, LegitStmt, GlobalLegitBehav", "src/prot-ofile.cc: string_of_invariant_style, string_of_invariant_behav", "src/opt.cc: parse_style", "src/prot-xfile.cc: assign_legit_mode"]}
{"id": "C100", "title": "Several assumptions or invariants mean the same after writing and reading", "statement": "The program joins the texts of the assumptions of the system, and of each kind of processes, to one text. When this text is written and read, it is one assumption, and taking it in gives the same set of states for the system and for every process as taking in all assumptions one by one. The same holds for invariants if all but the first bind at least as strongly as a conjunction. (Fails for invariants where a later one is a disjunction, implication or choice: parentheses are put around the first one only, so that the written invariant can be weaker.)", "quantifier": "all lists of expressions, all systems and indices of processes, where the index of a process is not the variable of a quantifier", "why_tests_cant": "Operator precedence in joined texts matters only for particular lists of expressions.", "anchors": ["src/prot-xfile.cc: add_legit, add_pc_legit, add_assume, add_pc_assume", "src/prot-ofile.cc: oput_protocon_file", "src/prot-xfile.leg: Expr, GlobalAssume, ProcAssume, LegitStmt"]}
{"id": "C101", "title": "The whole file written for a system is read back", "statement": "Let the program have read constants, variables, predicates, assumptions, invariants and kinds of processes (with local names, plain and symmetric accesses, stated actions), let it have chosen actions, and let every expression have a faithful text (C93, C100). Then the whole text that oput_protocon_file writes, with any one-line comment, is accepted by the grammar, and what is read is: the same constants, variables, predicates, behaviour, processes, local names and accesses in the same order (one reference in each statement), one assumption and one invariant with the same meaning as before, the same actions stated as shadow, permitted and forbidden, and exactly the chosen actions as puppet actions. (Fails if the name of a tuple occurs inside of an index expression like x[2*a]: the value is put in without parentheses and the actions written mention other variables; for lists of one constant; and if an invariant is stated before a predicate with the name of a constant.)", "quantifier": "all files, any number of declarations, processes, accesses and actions, all comments without line break", "why_tests_cant": "The order of the parts and where each ends depend on all parts at once; the number of combinations is unbounded.", "anchors": ["src/prot-ofile.cc: oput_protocon_file, oput_protocon_pc_vbls, oput_protocon_pc_acts", "src/prot-xfile.leg: ProtoconFile, ConstDecl, VarDecl, ProcDecl, SymmetricLinks", "src/prot-xfile.cc: add_access, add_symmetric_links, add_symmetric_access"]}
{"id": "C102", "title": "The transitions of an action do not depend on the mode of the system", "statement": "For an action number, Net::action_xfmlae and Net::represented_xns_of_pc give for each process exactly the transitions of the actions with this representative (the guard holds, the assignment changes something, the written variables get the assigned values), whether or not the flag lightweight is set; Net::action_pfmla gives the steps in which one process does so and all other variables, except random ones, are unchanged; and stabilization_ck builds the same relation from a list of actions in both modes. (Holds if the represented actions assign the same values, in particular if no access of a symmetric link is written. With lightweight, action_pfmla lacks every such step that starts where a step of any process ends, e.g. in a ring. With written symmetric links the modes differ, also in what is checked for stabilization, and without lightweight the result depends on the order of the numbers of actions.)", "quantifier": "all systems without random writes, any number of kinds of processes, processes, variables and actions, all states", "why_tests_cant": "Both modes would have to be compared on all systems and all actions; tests compare them for a few systems without chains of actions.", "anchors": ["src/xnsys.cc: Net::commit_initialization, Net::action_pfmla, Net::action_xfmlae, Net::represented_xns_of_pc, Net::make_action_xfmlae, Net::cache_action_xfmla, Net::add_access", "src/xfmlae.hh: Fmlae::xfmla, Fmlae::self_disable", "src/stabilization.cc: stabilization_ck"]}
{"id": "C103", "title": "The actions of a system stand for its transitions", "statement": "After Sys::commit_initialization, direct_pfmla contains exactly the steps in which some process takes one of the actions stated for its kind, all other variables except random ones being unchanged; actions lists exactly the representatives of the stated actions that some process can take in some state; and stabilization_ck checks the same relation whether or not information about the result is asked for (which decides between direct_pfmla and actions) and in both modes. (Holds if each kind has a process with distinct variables or only readable accesses to variables accessed twice, all processes of a kind have the same actions, the actions are stated for all orders of symmetric links, and symmetric actions assign the same values. Fails if a guard depends on the index of the process: only the transitions of one representative process are turned into actions. Fails if an action is stated for one order of symmetric links only: it is then also taken in the other order.)", "quantifier": "all systems without random writes, any number of kinds of processes, processes, variables and actions, all choices of states", "why_tests_cant": "Two ways of building a relation would have to be compared on all systems; tests use systems where both agree.", "anchors": ["src/xnsys.cc: Sys::commit_initialization", "src/xnpc.cc: PcSymm::actions, PcSymm::init_representative", "src/stabilization.cc: stabilization_ck"]}
{"id": "C104", "title": "The network has the declared variables and processes", "statement": "After the calls of Net::add_variables, commit_variables, add_processes and add_access made for a file, no assertion has failed; the table of variables contains every member of every declared variable exactly once (whatever numbers of members the variables have), each member points to its own entry, has the declared domain and is in exactly the lists of its declaration and role; the kinds of processes have their processes in order; the r-th variable of process i of a kind is the member of the r-th accessed variable whose number is the index for i modulo the number of members, the written variables are those of the written accesses in the same order, and the mask of the process lets exactly these variables change; a variable is random exactly if some process has a random read access to it. If all variables have equally many members, members with the same number are next to each other in the order of declaration.", "quantifier": "all declarations of any number of variables and processes with any number of members, domains, roles and accesses", "why_tests_cant": "The members are cut into parts by rounding up quotients of arbitrary sizes; a wrong boundary shows only for particular combinations of sizes.", "anchors": ["src/xnsys.cc: Net::add_variables, Net::commit_variable, Net::commit_variables, Net::add_processes, Net::add_access", "src/xnspec.hh: NatMap::index"]}
{"id": "C105", "title": "Actions are ranked by the distances they bridge", "statement": "rank_states terminates, its layer j has exactly the states from which the least number of transitions into the invariant is j, and it returns true exactly if the invariant can be reached from every state. rank_actions then puts every candidate into exactly one layer: the least j such that the action takes a state with distance j to one with distance j-1, or the last layer if there is none; layers keep the order of the candidates. A trial of RankShuffleSearch has every candidate exactly once, and the search gives up because of the ranking only if there is no solution.", "quantifier": "all finite state spaces, transition relations, invariants, assumptions, candidate lists and shuffles", "why_tests_cant": "Distances and layers depend on the whole relation; tests only see whether some protocol is found.", "anchors": ["src/search.cc: rank_states, rank_actions, stabilization_search_init, stabilization_search"]}
{"id": "C106", "title": "Conflicts read from a file are made smaller and stay valid", "statement": "For the task MinimizeConflictsTask the conflicts of the file are taken sorted stably by size (ascending or descending) or in a random permutation, each once. Whatever the number of threads, the assignment of conflicts to threads and the answers of done_ck: of the conflicts at the end none is part of a solution, none contains another, none is larger than max_conflict_sz, and every conflict of the file, declared conflict and rejected action (not larger than max_conflict_sz) contains one of them. If nothing interrupts the task and a solution exists, then a conflict of the file with at least two actions that is still there at the end is one from which no action can be taken away: without any one of its actions, together with the given actions, it keeps the legitimate states closed, has only legitimate cycles, and contains no other conflict.", "quantifier": "all problems with one or two systems, conflict files, numbers of threads, assignments of conflicts to threads, random numbers and interruptions", "why_tests_cant": "Whether a shrunken set still excludes every solution cannot be seen from a run; a wrong conflict silently removes solutions from later searches.", "anchors": ["src/search.cc: initialize_conflicts, stabilization_search", "src/synthesis.cc: PartialSynthesis::add_small_conflict_set"]}
{"id": "C107", "title": "Testing guesses tells whether the synthesizer confirms all of them", "statement": "For the task TestTask with any number of threads, in any interleaving: no assertion fails; at any time, if solution_found is set then ret_actions is a correct protocol (it has the given actions, respects all declared conflicts and every system stabilizes) made of actions of one of the guesses, of all of them unless the guess was given as a superset, and ret_actions is empty otherwise; no learned conflict is part of a solution. When all threads are at their end without a signal: if solution_found is set then every guess is confirmed by such a protocol, and if there are guesses and each is a solution then solution_found is set. N threads make at most N*(3*guesses+1)+1 steps and none is ever stuck.", "quantifier": "all problems with one or two systems, numbers of threads, lists of guesses, shuffles, interleavings, random numbers and signals", "why_tests_cant": "The shared answer is written by several threads, and one rejected guess has to undo the acceptance by another thread; which order occurs depends on the schedule.", "anchors": ["src/search.cc: stabilization_search", "src/synthesis.cc: PartialSynthesis::pick_actions_separately", "src/synthesis.hh: PartialSynthesis::candidate_ck, PartialSynthesis::delegate_ck"]}
{"id": "C108", "title": "Verifying files reports stabilizing protocols and learns valid conflicts", "statement": "For the task VerifyTask (-verify) with any number of files and threads, any assignment of files to threads and any order: no assertion fails; solution_found is set exactly if stabilization_ck accepts one of the files that were not skipped because of a signal, ret_actions are then the actions of such a file, whose protocol self-stabilizes to a part of the invariant, and empty otherwise; with one file the answer is that of the check. Every conflict written is from the file of conflicts or made of actions of a verified file, and in the latter case no protocol containing these actions stabilizes in the system of that file; none contains another, none is larger than max_conflict_sz; every old conflict contains one of them; and for every verified file with which only a livelock is wrong some conflict consists of its actions.", "quantifier": "all non-probabilistic systems, files, conflict files, numbers of threads, schedules and options", "why_tests_cant": "A conflict that excludes too much removes solutions from every later search with the written file, which no run of the task itself shows.", "anchors": ["src/search.cc: multi_verify_stabilization, stabilization_search", "src/stabilization.cc: stabilization_ck", "src/xnsys.cc: find_livelock_actions"]}
{"id": "C109", "title": "The written Promela model has the steps of the protocol", "statement": "OPutPromelaModel: the actions of the system are unrolled, whatever states the decision diagrams yield, to the list without repetitions of what their transitions within closed_assume read and write; a reference written for an access denotes, for each process of the kind, the member of the array at the index expression modulo the number of members, so no index is out of range; and the moves of the written model (init is process 0, the processes of active proctypes are numbered in order of declaration, assignments are made one after the other) are exactly the steps of the processes of the protocol: those that have the values of a transition of an action of their kind before and after it, keeping everything else.", "quantifier": "all topologies, numbers of processes and members, index expressions, actions, states and orders of the actions", "why_tests_cant": "A model checker run on the written model reports properties of a different protocol without any error; that would be noticed only by comparing all transitions.", "anchors": ["src/promela.cc: OPutPromelaModel, OPutPromelaPc, OPutPromelaAction, OPutPromelaVblRef", "src/xnsys.cc: Net::unroll_action"]}
{"id": "C110", "title": "Synthesis with a SAT solver finds a protocol exactly if there is one", "statement": "The program msat (src/msat.cc): with any solver that answers correctly, the loop of solving, checking and adding clauses ends after at most 2^n rounds for n actions and no assertion fails. If it writes actions then they self-stabilize to the invariant and behave as specified, none of them was dropped or rejected by candidate_actions, and all candidates among them can coexist; it writes actions if and only if some set of candidates that can coexist is such a protocol (provided that actions which candidate_actions does not sort have no transitions).", "quantifier": "all non-probabilistic systems without shadow variables, sets of candidates, answers of coexist_ck and models the solver may return", "why_tests_cant": "A clause that excludes too much loses solutions, and which clauses are learned depends on the models the solver happens to return.", "anchors": ["src/msat.cc: main", "src/stabilization.cc: stabilization_ck", "src/xnsys.cc: find_livelock_actions"]}
{"id": "C111", "title": "Actions minimized with espresso have the same steps", "statement": "oput_protocon_pc_acts_espresso_spawn: whatever cubes espresso answers, provided that they cover the same points and have no empty part, the actions written for them have the steps of the given actions: a written action applies to the values v of the accessed variables and gives the values w to the written ones if and only if one of the actions does. If the actions are deterministic no assertion fails.", "quantifier": "all processes, actions, numbers of values and answers of espresso", "why_tests_cant": "The written protocol is only read by later runs; which cubes espresso forms depends on all actions together.", "anchors": ["src/pla.cc: oput_pla_act, oput_pla_pc_acts, oput_protocon_pc_act, oput_protocon_pc_acts_espresso_spawn"]}
{"id": "C112", "title": "The check of an invariant of bidirectional rings is about all ring sizes", "statement": "biring.cc, for any set of local configurations (values of left neighbour, process and right neighbour): biring_fixpoint ends and leaves exactly the configurations that occur in some ring all of whose configurations are in the set, so it removes no such ring; biring_sat_ck ends and, for a smallest size N_0 > 0, answers true if and only if there is such a ring of every size n >= N_0, and for N_0 = 0 if and only if there is one of every size that is large enough.", "quantifier": "all numbers of values, sets of configurations, smallest sizes and ring sizes", "why_tests_cant": "The statement is about infinitely many ring sizes; the check looks at finitely many images of configurations.", "anchors": ["src/biring.cc: biring_sat_ck, true_biring_sat_ck, img, biring_fixpoint, biring_legit_enum_idx, biring_continuations"]}
{"id": "C113", "title": "The search for invariants of bidirectional rings writes each of them once up to renaming of values", "statement": "searchit of biring.cc, for any number of values, with and without the options -pair and -all and for any smallest ring size: the search ends; no line is written twice; every line is an invariant, that is the set of the configurations that occur in the rings of some predicate on local configurations (without configurations of equal values unless asked for, and depending only on the process and its left neighbour with -pair) that has rings of all sizes from the smallest one (of all large sizes if that is 0); and for every such invariant exactly one of the lines is a renaming of its values. So the pruning of sets that are renamings of sets seen before loses no invariant although only places below the last one removed are tried.", "quantifier": "all numbers of values, options, smallest sizes and invariants; any strict total order of bit tables", "why_tests_cant": "Sets are pruned because a renaming was seen, but the rest of the search from that renaming tries other places; that nothing is lost needs an argument over all sets, and there are 2^(d^3) of them.", "anchors": ["src/biring.cc: recurse, searchit, biring_fixpoint, biring_sat_ck, canonical_set"]}
{"id": "C114", "title": "The filters of invariants of bidirectional rings answer what they are meant to, and matches have rings of all sizes", "statement": "biring.cc, for any number of values and any set of local configurations: subck_match answers true if and only if there are values a, b, c, d as in its comment, and then there are rings of all sizes from 2; subck_2match, subck_3match and subck_next7 answer true if and only if a renaming of their pattern is in the set, and then there are rings of all sizes from 2; subck_next10 answers true if and only if a renaming of one of its 14 sets is in the set, and then there are rings of all sizes from 3; local_propagation_syn answers true if and only if for every configuration outside of the set its process has a value for which the configuration is in the set or in no ring of the set with that configuration; echo_subsets writes, each once, the canonical forms of the sets of configurations in rings without one configuration of the set that have rings of all sizes from the smallest one.", "quantifier": "all numbers of values, sets of configurations and ring sizes", "why_tests_cant": "Rings of all sizes are infinitely many, and the sets of configurations are 2^(d^3).", "anchors": ["src/biring.cc: subck_match, subck_2match, subck_3match, subck_next7, subck_next10, subgraph_isomorphism_ck, local_propagation_syn, echo_subsets"]}
{"id": "C115", "title": "The listings of states, transitions and the topology are complete and without repetition", "statement": "xnsys.cc: oput_all_xn ends and writes every transition of its formula exactly once, as a line with its first and a line with its second state; oput_all_pf ends and writes every state of its formula exactly once (and with the sign 1 oput_pfmla writes every state that a transition reaches exactly once); oput_one_xn and oput_one_pf write one transition or state of the formula, and nothing if there is none. graphviz.cc: there is a line for every process with its name; two processes that each write a variable that the other reads have exactly one edge with dir=both, from the one with the smaller number; otherwise there is exactly one edge from i to j if i writes a variable that the other process j reads, and no other edges.", "quantifier": "all formulas, choices of states, and topologies", "why_tests_cant": "The loop removes different sets for the three kinds of listings; that it ends and misses nothing is about all formulas.", "anchors": ["src/xnsys.cc: Net::oput_pfmla, oput_one_xn, oput_all_xn, oput_one_pf, oput_all_pf", "src/graphviz.cc: oput_graphviz_file"]}
{"id": "C116", "title": "The channels written for the UDP implementation carry the variables of the neighbours", "statement": "udp-ofile.cc: the owner of a puppet variable is the first process that writes it, or else the first that reads it. The written process_of_channel gives every process that owns a variable of this one or has a variable that this one owns, each on exactly one channel and both ways, and the process itself from then on; there are at most Max_NChannels channels. The written variable_of_channel never sends a variable that the process does not own, has a first entry for reading exactly if the process has a variable of the neighbour, and is such that after a process copies the packet that its neighbour filled, each of its variables that the neighbour owns has the value it has there and the others are unchanged. The last part is proved for processes that access no variable twice; otherwise it is false.", "quantifier": "all topologies, values of variables and former contents of packets", "why_tests_cant": "Tests would have to compile and run the written program on many topologies; the agreement of the two tables of each pair of processes is about all of them.", "anchors": ["src/udp-ofile.cc: oput_udp_include_file", "src/udp-impl/protocol.c: CMD_send1, handle_recv, channel_idx_ck, all_adj_acknowledged"]}
{"id": "C117", "title": "The functions written for the UDP implementation act exactly as the synthesized transitions", "statement": "udp-ofile.cc: from any values of the variables of a process the written action_assign restores the old values if no transition of the process is from them; otherwise its possible results are exactly the values after the transitions from them that change a puppet variable, or the values themselves if there is none; so without random variables CMD_act finds a change, whatever number is drawn, exactly if there is such a transition. For an assumption about puppet variables, writing fails exactly if no values of the writable variables work for all values of the others; otherwise assume_assign gives values that meet the assumption, assigns only writable variables, and changes nothing if the assumption holds. After fix_process_state reduces values by domsz_of_variable, each is below its domain size and those that were are unchanged. Every process runs the part of its symmetry; this is proved if each symmetry with processes in the written topology has some in the topology of the synthesis, and is false otherwise.", "quantifier": "all transitions, assumptions, values, numbers drawn and process symmetries", "why_tests_cant": "The written program would have to be compiled and run from every local state and for every number drawn.", "anchors": ["src/udp-ofile.cc: oput_udp_include_file", "src/udp-impl/protocol.c: fix_process_state, CMD_act"]}
{"id": "C118", "title": "Invariants of bidirectional rings are written with the same meaning", "statement": "biring.cc: for values below the domain size the invariant that oput_biring_protocon_spec writes holds exactly for the configurations of the set, and with the option pair exactly if some value of the right neighbour gives a configuration of it; no clause is written twice. For every invariant that the search lists the legitimate rings of the written specification are exactly the rings of the invariant, also with pair and with the larger domain. With the larger domain the action is enabled exactly if no value involved is the new one and no value of the process is legitimate with those of its neighbours; no configuration in which the process or its left neighbour has the new value is legitimate. The graph of oput_graphviz has one edge from (a,b) to (b,c) exactly if the set has (a,b,c) and a configuration that begins with b and c, and with pair one edge from a to b exactly if the set has a configuration that begins with them.", "quantifier": "all domain sizes, sets of configurations, values and lengths of rings", "why_tests_cant": "There are exponentially many sets of configurations, and rings of every length.", "anchors": ["src/biring.cc: oput_biring_invariant, oput_biring_protocon_spec, oput_graphviz"]}
{"id": "C119", "title": "Processes with random writes keep exactly the steps that are allowed", "statement": "xnsys.cc: after Net::fixup_pc_xns the puppet transitions of a process that writes a variable randomly are exactly those of its steps that start and end in its assumption, are not forbidden, and are permitted if any transition is; nothing else changes, other processes keep their transitions, and doing it again changes nothing. So the assumption holds in all states of an execution of the process, and none of its steps is forbidden. The steps of an action in xn_of_pc are restricted in the same way; this is proved if a puppet variable is written randomly, and is false if only pure shadow variables are.", "quantifier": "all processes, assumptions, sets of forbidden and permitted transitions, actions and executions", "why_tests_cant": "A missing restriction shows only for a process whose random value leaves the assumption, and only in a model with such an assumption.", "anchors": ["src/xnsys.cc: Net::fixup_pc_xns, Net::xn_of_pc"]}
{"id": "C120", "title": "The built-in problem instances are the problems they are named after, for every number of processes", "statement": "inst.cc, for any positive number of processes: in unidirectional and bidirectional rings, symmetric or not, with a distinguished process or not, process i writes variable i and reads it, that of its predecessor and in bidirectional rings that of its successor. The invariants of the colouring instances hold exactly if neighbours differ; with three colours there is a legitimate state exactly if there is not just one process, with two exactly if the number of processes is even. The invariant of InstMatching holds exactly for maximal matchings, and there is one unless there is just one process. The invariant of InstSumNot holds exactly if no two neighbours have the sum target, that of InstAgreementRing exactly if the values change around the ring by the same amount modulo the number of processes. SingleTokenPFmla holds exactly if exactly one of the given formulas does.", "quantifier": "all numbers of processes, states, targets and lists of formulas", "why_tests_cant": "Tests run the instances for a few small rings; the problem and its solvability depend on the number of processes.", "anchors": ["src/inst.cc: UnidirectionalRing, BidirectionalRing, InstThreeColoringRing, InstTwoColoringRing, InstMatching, InstSumNot, InstAgreementRing, SingleTokenPFmla"]}
{"id": "C121", "title": "The instances of a parameterized system are exactly the combinations of the values of its parameters", "statement": "opt.cc: a range a..b has exactly the numbers from a to b in order, upwards or downwards. push_instances keeps the instances so far and adds exactly the combinations of one value for each parameter that is given as a number, list or range, with lists in parentheses as one value; their number is the product of the numbers of values. The text of the chosen value of a parameter, which is written to files, is the value; this is proved for all but the first value, and is false for the first of several values, whose text is that of all values.", "quantifier": "all ranges, lists of instances and maps of parameters", "why_tests_cant": "The number of combinations grows with each parameter; tests use one or two parameters.", "anchors": ["src/opt.cc: parse_NatMap, push_instances"]}
{"id": "C122", "title": "The filter of bidirectional rings reads the sets that are written and answers each question that is asked", "statement": "biring.cc: a line gives the set of places at which it has the digit 1 after white space, if it has a character for each configuration; a line of white space ends the reading, a shorter line the program. If sets are written one in each line, with or without answers of an earlier filter after them, filter_stdin reads exactly these sets in their order. Each answer is written exactly if its option is given; this is proved with -echo or -echo-subsets, and is false without, when four of the options write nothing.", "quantifier": "all lines, sets, lists of sets and options", "why_tests_cant": "There are exponentially many sets and combinations of options.", "anchors": ["src/biring.cc: xget_BitTable, filter_stdin"]}
