{"id": "C01", "title": "Agent history behaves as a sorted predecessor map", "statement": "For every sequence of writes to an agent's x-history, reading index k returns the most recently written value at the greatest recorded iteration <= k, reading -1 returns the value at the greatest recorded iteration, reading below the smallest recorded iteration (or an empty history, or an index < -1) raises ValueError, and the recorded iterations are strictly increasing without duplicates.", "quantifier": "every finite sequence of history writes (any order, repeats, rejected negative keys) and every read index", "why_tests_cant": "insertion orders, overwrites and gaps form an unbounded space; a test only covers some of them", "anchors": ["decent_bench/agents.py: AgentHistory.__setitem__, __getitem__, min, max, keys"]}
{"id": "C02", "title": "Snapshot schedule of a run", "statement": "After algorithm.run with N iterations from scratch, an agent's history contains exactly iteration 0, every multiple of its state_snapshot_period up to N, and N itself; and the entry stored for iteration k is the agent's x at the end of iteration k.", "quantifier": "every snapshot period p >= 1, number of iterations N >= 1 and every step behaviour", "why_tests_cant": "ranges over all periods, run lengths and algorithms", "anchors": ["decent_bench/agents.py: Agent._snapshot, Agent.initialize", "decent_bench/algorithms/_algorithm.py: Algorithm.run"]}
{"id": "C03", "title": "Inbox is a map keyed by (channel, sender)", "statement": "After any sequence of deliveries and clears an agent's inbox answers get/has/by_channel as the abstract map from (channel, sender) to the last delivered, not-yet-cleared message; clear(sender, channel) removes exactly the matching entries; looking up an absent message raises KeyError.", "quantifier": "every sequence of put/clear operations with any sender/channel scoping", "why_tests_cant": "unbounded histories of nested-dictionary mutations", "anchors": ["decent_bench/agents.py: ReceivedMessages.put, get, has, by_channel, clear"]}
{"id": "C04", "title": "Cost call counters count exactly the evaluations made outside no_count", "statement": "After initialize(), each call counter equals the sum, over cost evaluations made outside every no_count block, of the number of samples used (empirical-risk costs) or 1 (other costs); evaluations inside arbitrarily nested no_count blocks, or evaluations that raise, are never counted, and leaving a block - normally or through an exception - restores counting exactly as before the block.", "quantifier": "every program of evaluations, nested no_count blocks and exceptions", "why_tests_cant": "nesting depth and exception points are unbounded", "anchors": ["decent_bench/agents.py: Agent._call_counting_*, Agent.no_count, Agent.initialize"]}
{"id": "C05", "title": "Agent initialize gives a fresh agent", "statement": "Agent.initialize(x, aux_vars) leaves the agent in a state that depends only on x and aux_vars (empty inbox, zero counters, history {0: x}), independent of everything the agent did before; initialising with a wrong-shaped x raises. The stale-state exception: initialize without x keeps the previous x.", "quantifier": "every prior agent state and every argument", "why_tests_cant": "all reachable prior states", "anchors": ["decent_bench/agents.py: Agent.initialize"]}
{"id": "C06", "title": "Message conservation", "statement": "In every execution, over all agents, total sent messages = total received messages + total dropped messages, and each agent's dropped count never exceeds its sent count.", "quantifier": "every sequence of sends/broadcasts/steps with any drop, noise, compression and activation behaviour", "why_tests_cant": "drop schedules are adversarial and executions unbounded", "anchors": ["decent_bench/networks.py: Network.send, P2PNetwork.broadcast, FedNetwork.send"]}
{"id": "C07", "title": "Delivery safety of send", "statement": "A send either raises and changes no agent, or delivers only to the requested agents, each of which is connected to the sender and active in the current iteration; a message is delivered to a receiver iff the sender's drop scheme did not drop it, and it is stored under (channel, sender). After the network advances to the next iteration no earlier message is readable.", "quantifier": "every network, sender, receiver specification, message and drop outcome", "why_tests_cant": "all graphs, receiver lists and drop outcomes", "anchors": ["decent_bench/networks.py: Network.send, Network._step, Network._allowed_receivers, Network.active_connected_agents"]}
{"id": "C08", "title": "The active set is fixed within an iteration", "statement": "All queries of active agents / active neighbours between two consecutive iterations agree with each other, and each agent's activation scheme is consulted at most once per iteration, whatever the number and order of the queries.", "quantifier": "every sequence of queries and iteration changes and every (stateful) activation scheme", "why_tests_cant": "query interleavings are unbounded", "anchors": ["decent_bench/networks.py: Network.active_agents, active_connected_agents, _step"]}
{"id": "C09", "title": "Documented rejection of inactive senders", "statement": "send() documents that it raises if sender or receiver is not active; the receiver half holds, but a send by an inactive sender succeeds and delivers.", "quantifier": "every network state (refuted by a concrete execution; the receiver half is proved for all)", "why_tests_cant": "the documented guard must hold for every activation pattern", "anchors": ["decent_bench/networks.py: Network.send"]}
{"id": "C10", "title": "Agent indexing on network construction", "statement": "A successful Network construction numbers the agents 0..n-1 bijectively in graph order, and two networks never share an agent; but a construction that fails in scheme initialisation has already numbered the agents, so the same agents are rejected by a corrected second construction.", "quantifier": "every graph, agent list and scheme argument", "why_tests_cant": "all construction arguments, including failing ones", "anchors": ["decent_bench/networks.py: Network.__init__, _validate_agent_ids, _initialize_message_schemes"]}
{"id": "C11", "title": "Federated networks never carry client-to-client traffic", "statement": "In a FedNetwork every delivered message has the server as its sender or its receiver, the server is active in every iteration, server-to-server and client-to-client sends raise, and a client's send without receiver goes to the server only.", "quantifier": "every sequence of sends with any sender/receiver arguments and any activation pattern", "why_tests_cant": "all call sequences and argument combinations", "anchors": ["decent_bench/networks.py: FedNetwork.send, FedNetwork.__init__, FedNetwork._allowed_receivers"]}
{"id": "C12", "title": "Metropolis weights are symmetric and doubly stochastic", "statement": "For every simple graph the P2P weight matrix is symmetric, has non-negative entries, is zero between non-neighbours, and every row and column sums to 1, with strictly positive diagonal.", "quantifier": "every finite simple graph of any size", "why_tests_cant": "all graphs", "anchors": ["decent_bench/networks.py: P2PNetwork.weights"]}
{"id": "C13", "title": "Metropolis weights on graphs with self-loops", "statement": "P2PNetwork accepts graphs with self-loops; there the weight matrix is not stochastic (refutation of row-stochasticity), since the loop is listed as a neighbour and then its entry is overwritten.", "quantifier": "every graph accepted by the constructor (refuted by a concrete graph)", "why_tests_cant": "needs the constructor's actual acceptance condition", "anchors": ["decent_bench/networks.py: P2PNetwork.weights, Network.__init__"]}
{"id": "C14", "title": "Cyclic activation is exactly periodic", "statement": "CyclicActivation makes an agent active in exactly active_for of any active_for+inactive_for consecutive iterations, and the pattern repeats with that period.", "quantifier": "every active_for, inactive_for, offset and iteration", "why_tests_cant": "all parameters and iterations", "anchors": ["decent_bench/schemes.py: CyclicActivation"]}
{"id": "C15", "title": "Stateful activation and drop schemes follow their chains", "statement": "Poisson activation is active exactly at the partial sums of its drawn waiting times; Markov activation is active iff the chain is in the active state and starts active; Gilbert-Elliott drops only while its chain is in the bad state. One query advances the chain exactly once.", "quantifier": "every sequence of random draws and every number of queries", "why_tests_cant": "all random outcomes", "anchors": ["decent_bench/schemes.py: PoissonActivation, MarkovChainActivation, GilbertElliott"]}
{"id": "C16", "title": "Client selection returns a valid sample", "statement": "Every client-selection scheme applied to a non-empty list of clients returns distinct clients from that list, their number being min(num, len) or, for a fraction, between 1 and len; applied to no clients it returns none.", "quantifier": "every client list, selection size, iteration, and random draw", "why_tests_cant": "all pools, draws and losses", "anchors": ["decent_bench/schemes.py: UniformClientSelection, DataSizeClientSelection, FairClientSelection, HighLossClientSelection, _resolve selection size"]}
{"id": "C17", "title": "Fair selection is balanced", "statement": "With a fixed set of active clients, after any number of rounds of FairSelection the numbers of times two clients have been selected differ by at most one.", "quantifier": "every pool, selection size and number of rounds", "why_tests_cant": "unbounded number of rounds", "anchors": ["decent_bench/schemes.py: FairSelection"]}
{"id": "C18", "title": "Top-k compression keeps the k largest entries", "statement": "TopK output equals the input on a set of k positions and is zero elsewhere, no dropped entry exceeds a kept entry in magnitude, at least one entry is kept, and no vector with at most k non-zeros is closer to the message in squared error. RandK keeps exactly k drawn positions.", "quantifier": "every message, every k (int or fraction) and every tie-breaking/draw", "why_tests_cant": "all vectors and tie-breaks", "anchors": ["decent_bench/schemes.py: TopK.compress, RandK.compress"]}
{"id": "C19", "title": "Declared compressed size equals transmitted entries", "statement": "For TopK/RandK the declared message size equals the number of transmitted entries when k does not exceed the message length; with an integer k larger than the message the declared size exceeds the message size, so the sent-message counters overcount (refutation).", "quantifier": "every message length and k", "why_tests_cant": "all k, n pairs", "anchors": ["decent_bench/schemes.py: TopK.compressed_msg_size, RandK.compressed_msg_size, Network.send"]}
{"id": "C20", "title": "Quantization error bounds and unbiasedness", "statement": "Quantization moves every entry by at most half a step, lands on the grid and is idempotent; stochastic quantization keeps signs and zeros, errs by at most norm/n_levels per entry, and its expected value over the random draws is the message itself.", "quantifier": "every message, step/levels and draw", "why_tests_cant": "all reals", "anchors": ["decent_bench/schemes.py: Quantization.compress, StochasticQuantization.compress"]}
{"id": "C21", "title": "Algorithm.run executes exactly the scheduled iterations", "statement": "run(start, N) raises unless 0 <= start <= N, initialises iff start = 0, performs network-advance, step, snapshot, callback in this order exactly once for each k in start..N-1; running to m and then continuing from m to N has the same final state as one run to N except for the extra forced snapshot at m.", "quantifier": "every algorithm, N, start and split point", "why_tests_cant": "all split points and algorithms", "anchors": ["decent_bench/algorithms/_algorithm.py: Algorithm.run"]}
{"id": "C22", "title": "Initial states cover exactly the network's agents", "statement": "initial_states returns a correctly-shaped state for exactly the agents of the network: zeros by default, the given array for all, or the per-agent values matched by agent id; a missing agent or wrong shape raises, and a missing federated server entry becomes the mean of the clients.", "quantifier": "every network and every x0 argument", "why_tests_cant": "all argument shapes and id assignments", "anchors": ["decent_bench/algorithms/utils.py: initial_states"]}
{"id": "C23", "title": "Average dynamics of the primal P2P methods", "statement": "With all agents active and lossless communication, DGD, SimpleGT, ED, NIDS and EXTRA move the network average of x exactly by -step_size times the average of the local gradients, in every iteration.", "quantifier": "every connected network, cost functions, initial states, step size and number of iterations", "why_tests_cant": "all networks, costs and histories", "anchors": ["decent_bench/algorithms/p2p/_dgd.py, _simple_gt.py, _ed.py, _nids.py, _extra.py: step"]}
{"id": "C24", "title": "Gradient trackers track the average gradient", "statement": "With all agents active and lossless communication, in AugDGM, ATC-Tracking, GT-SAGA, GT-VR and GT-SARAH the sum of the trackers y over the agents equals the sum of the current gradient estimators, after every iteration and for every sequence of (stochastic) gradient estimates.", "quantifier": "every network, gradient oracle, batch sequence and number of iterations", "why_tests_cant": "all histories of stochastic gradients", "anchors": ["decent_bench/algorithms/p2p/_aug_dgm.py, _atc_tracking.py, _gt_saga.py, _gt_vr.py, _gt_sarah.py: step"]}
{"id": "C25", "title": "Dual and correction variables sum to zero", "statement": "With all agents active and lossless communication, the dual/correction variables of LED (y), ProxSkip (y), Wang-Elia (z) and K-GT (c) sum to zero over the agents after every iteration, including ProxSkip's skipped-communication rounds.", "quantifier": "every network, gradient oracle, coin sequence and number of iterations", "why_tests_cant": "all histories", "anchors": ["decent_bench/algorithms/p2p/_led.py, _prox_skip.py, _wang_elia.py, _kgt.py"]}
{"id": "C26", "title": "ATC does not implement its documented update", "statement": "ATC documents x_i' = sum_j W_ij (x_j - rho grad f_j(x_j)) over j including i; the implementation mixes the unadapted x_i for the own term, so the step equals the documented one plus rho W_ii grad f_i(x_i) and the network average moves by only -(rho/n) sum_j (1-W_jj) grad f_j(x_j); a single-agent network never moves.", "quantifier": "every network and state (exact characterisation), with a concrete refutation", "why_tests_cant": "the discrepancy formula must hold for all networks", "anchors": ["decent_bench/algorithms/p2p/_atc.py: ATC.step"]}
{"id": "C27", "title": "Summing received messages must not corrupt other agents", "statement": "DLM and DiNNO document updates over the neighbours' transmitted states. A noiseless broadcast hands the same array object to all receivers, and the sum of the received messages is accumulated in place into the first received message. For DLM the documented recursion holds for every number of iterations whenever receivers own their messages (additive noise) or have at most one neighbour, and fails on a 3-agent triangle otherwise. DiNNO sums (and halves) the messages in place twice per iteration, so even with receiver-owned messages its primal step uses (2S - x_j0)/2 instead of S/2 (S the sum of received states, j0 the first sender); the documented step holds when every agent hears at most one neighbour and owns the message, and fails on a 3-agent path with shared messages.", "quantifier": "every network and processing order (refuted concretely; conditional version for all)", "why_tests_cant": "aliasing depends on the whole heap and processing order", "anchors": ["decent_bench/algorithms/p2p/_dlm.py: _sum_messages", "decent_bench/algorithms/p2p/_dinno.py: _auxiliary_update, _local_training", "decent_bench/networks.py: Network.send", "decent_bench/utils/interoperability/_operators.py: iadd"]}
{"id": "C28", "title": "Consensual stationary points are fixed, unless messages are lost", "statement": "If all agents hold the same x and every local gradient vanishes there, then with lossless communication a DGD iteration changes nothing; with a single dropped message the receiving agent moves although nothing is to be done, because received weights are not renormalised.", "quantifier": "every network and state; refutation for lossy networks", "why_tests_cant": "all networks and drop patterns", "anchors": ["decent_bench/algorithms/p2p/_dgd.py: step"]}
{"id": "C29", "title": "Federated averaging is the mean of the received uploads", "statement": "After a FedAvg round the server model is the arithmetic mean of the uploads received from the round's participants, every coordinate lies between the smallest and largest upload, and if no upload is received the server model is unchanged.", "quantifier": "every set of selected clients and every drop pattern", "why_tests_cant": "all drop patterns and client sets", "anchors": ["decent_bench/algorithms/federated/_fed_algorithm.py: aggregate, _weighted_average", "decent_bench/algorithms/federated/_fed_avg.py: step"]}
{"id": "C30", "title": "FedProx with zero penalty is FedAvg", "statement": "FedProx with penalty 0 produces the same sequence of server and client states as FedAvg from the same initial state.", "quantifier": "every network behaviour, cost, number of rounds and local steps", "why_tests_cant": "all histories", "anchors": ["decent_bench/algorithms/federated/_fed_prox.py, _fed_avg.py"]}
{"id": "C31", "title": "FedNova normalisation", "statement": "FedNova's uploaded cumulative update equals the received server model minus the final local model; without momentum and proximal term its coefficient equals the number of local steps; with equal local steps and equal data sizes a FedNova round equals a FedAvg round; coefficients are positive whenever step_size*penalty <= 1, and hyper-parameters accepted by the constructor exist for which a coefficient is non-positive and the round raises.", "quantifier": "every gradient oracle, step count and hyper-parameter", "why_tests_cant": "unbounded local steps and all hyper-parameters", "anchors": ["decent_bench/algorithms/federated/_fed_nova.py: _compute_local_update, aggregate"]}
{"id": "C32", "title": "SCAFFOLD control variates stay consistent", "statement": "If the server control variate is the mean of the client control variates and all uploads of participating clients arrive, it remains so after every round under any partial participation; a single lost upload breaks the relation permanently.", "quantifier": "every client subset, gradient oracle and number of rounds", "why_tests_cant": "all participation histories", "anchors": ["decent_bench/algorithms/federated/_scaffold.py"]}
{"id": "C33", "title": "FedDyn server state is the mean of the client states", "statement": "If all uploads arrive, FedDyn's server vector h equals the mean of the clients' dynamic states g_i after every round under any partial participation; a lost upload breaks it.", "quantifier": "every client subset, gradient oracle and number of rounds", "why_tests_cant": "all participation histories", "anchors": ["decent_bench/algorithms/federated/_fed_dyn.py"]}
{"id": "C34", "title": "Adaptive server updates are well defined", "statement": "In FedAdam, FedYogi and FedAdagrad the second-moment state stays non-negative for every sequence of received deltas, so the square root is defined and the denominator is at least epsilon > 0 in every round; FedAdagrad's second moment is non-decreasing.", "quantifier": "every sequence of aggregated deltas and all accepted hyper-parameters", "why_tests_cant": "unbounded rounds", "anchors": ["decent_bench/algorithms/federated/_fed_opt.py, _fed_adam.py, _fed_yogi.py, _fed_adagrad.py"]}
{"id": "C35", "title": "Fed-LT server view of client states", "statement": "The server's stored z for a client always equals the z that client last successfully uploaded (initially its initial z), and the broadcast is the proximal of the mean of the stored values; clients not participating keep x and z.", "quantifier": "every participation and drop history", "why_tests_cant": "all histories", "anchors": ["decent_bench/algorithms/federated/_fed_lt.py"]}
{"id": "C36", "title": "Crash-resume equivalence", "statement": "If a checkpointed trial is interrupted at any point, any number of times, and resumed each time (with the checkpoint files written atomically), the final agent states, random state and result are identical to those of an uninterrupted run.", "quantifier": "every number and placement of crashes and every checkpoint step", "why_tests_cant": "all crash points and schedules", "anchors": ["decent_bench/benchmark/_benchmark.py: _run_trial", "decent_bench/utils/checkpoint_manager.py: save_checkpoint, load_checkpoint, should_checkpoint, mark_trial_complete"]}
{"id": "C37", "title": "Crash consistency of the checkpoint files", "statement": "At every crash point the checkpoint directory either has no progress record or a progress record that names an existing, complete checkpoint. Refuted: progress.json is truncated in place, so a crash between truncation and write makes the resume fail; it holds for every crash point outside those write windows and an unchanged checkpoint step.", "quantifier": "every crash point in every save", "why_tests_cant": "all crash points", "anchors": ["decent_bench/utils/checkpoint_manager.py: save_checkpoint, load_checkpoint, _cleanup_old_checkpoints"]}
{"id": "C38", "title": "Checkpoint retention", "statement": "After every save at most keep_n_checkpoints checkpoint files remain for the trial, they are the ones with the largest iterations, and the newest checkpoint is never deleted.", "quantifier": "every sequence of saves and every retention parameter", "why_tests_cant": "unbounded save histories", "anchors": ["decent_bench/utils/checkpoint_manager.py: _cleanup_old_checkpoints"]}
{"id": "C39", "title": "Extending a benchmark on resume", "statement": "After any history of resume calls the last call runs the original trials plus all added trials, and, if it adds iterations itself, the original iterations plus all added ones; a benchmark extended this way (interrupted anywhere, any number of times) ends like a fresh benchmark with the total number of iterations, up to histories. Resuming without an increase silently forgets previously added iterations (refutation of idempotence), leaves a trial interrupted beyond the original end stuck for ever, and extra trials added on resume are not returned when the benchmark result is loaded.", "quantifier": "every history of resume calls", "why_tests_cant": "all resume histories", "anchors": ["decent_bench/benchmark/_benchmark.py: resume_benchmark", "decent_bench/utils/checkpoint_manager.py: load_benchmark_result"]}
{"id": "C40", "title": "Trial seeds", "statement": "The derived trial seed is a valid 32-bit seed, depends only on (base seed, algorithm index, trial index), and two different trials (below 2^32) of the same algorithm never get the same seed; seeds of different algorithms can collide.", "quantifier": "every base seed, algorithm index and trial index", "why_tests_cant": "2^32 trials cannot be enumerated by a test", "anchors": ["decent_bench/benchmark/_benchmark.py: _derive_trial_seed"]}
{"id": "C41", "title": "RNG state save/restore round trip", "statement": "Restoring a captured random state makes every later draw from every captured generator the same as after the capture, whatever was drawn or re-seeded in between; seeding with a framework list without NumPy leaves the NumPy generator used by schemes and batching unseeded (refutation of reproducibility).", "quantifier": "every sequence of draws and seedings between capture and restore", "why_tests_cant": "all interleavings", "anchors": ["decent_bench/utils/interoperability/_rng.py: set_seed, get_rng_state, set_rng_state"]}
{"id": "C42", "title": "Result trial order after a partial resume", "statement": "The list of results per algorithm contains each trial exactly once; in an uninterrupted benchmark position t holds trial t, but after a partial resume previously completed trials come first (refutation of position = trial).", "quantifier": "every set of completed trials", "why_tests_cant": "all subsets of completed trials", "anchors": ["decent_bench/benchmark/_benchmark.py: _run_trials, resume_benchmark"]}
{"id": "C43", "title": "Agent-keyed dictionaries survive checkpointing", "statement": "Saving the initial algorithms replaces every attribute that is a non-empty agent-keyed dictionary by a compact form and puts the originals back afterwards (also when saving raises), so the caller's algorithm is unchanged; restoring the saved attributes against the loaded network gives back the same mapping (keys, values and order) with the network's agents as keys, and raises if an agent is unknown; agents with equal hashes lose entries.", "quantifier": "every algorithm, every set of attributes and every network whose agents have distinct hashes", "why_tests_cant": "all mappings, all networks", "anchors": ["decent_bench/utils/checkpoint_manager.py: _compact_algorithm_agent_dicts_inplace, _restore_algorithm_agent_dicts_inplace, _save_initial_algorithms, load_initial_algorithms"]}
{"id": "C44", "title": "Partitions are disjoint and of the requested sizes", "statement": "IID, size-based, stratified and Dirichlet partitioners return index lists that are pairwise disjoint, without repetition, within range and of exactly the requested sizes (resp. covering the data), for every random permutation/choice; the internal 'could not create' errors are unreachable on validated input.", "quantifier": "every dataset size, label assignment, partition counts and random draw", "why_tests_cant": "all sizes, labels and permutations", "anchors": ["decent_bench/datasets/partitioners/_iid.py, _size.py, _stratified_iid.py, _dirichlet_label.py, _utils.py"]}
{"id": "C45", "title": "Apportionment of counts", "statement": "Even counts sum to the total and differ by at most one; proportional counts sum to the requested total, never exceed the available counts, each differ from the exact proportion by less than one, and are rounded up in order of largest remainder.", "quantifier": "every total and count vector", "why_tests_cant": "all count vectors", "anchors": ["decent_bench/datasets/partitioners/_utils.py: _even_counts, _proportional_counts"]}
{"id": "C46", "title": "Shard partitioning covers every sample once", "statement": "Shard partitioning assigns every sample to exactly one partition, each partition receiving the same number of shards, for every label assignment and shard permutation.", "quantifier": "every dataset, partition and shard number, and permutation", "why_tests_cant": "all permutations", "anchors": ["decent_bench/datasets/partitioners/_shard.py"]}
{"id": "C47", "title": "Label-quantity allocation is sound and complete", "statement": "Label-quantity partitioning terminates, gives every partition exactly its size using only its allowed labels and available samples, and raises the infeasibility error only if no allocation at all exists.", "quantifier": "every label/partition instance", "why_tests_cant": "infeasibility is a statement over all allocations (max-flow/min-cut)", "anchors": ["decent_bench/datasets/partitioners/_label_quantity.py: _label_partition_allocations, _max_flow, _find_augmenting_path"]}
{"id": "C48", "title": "Dataset split validates indices", "statement": "Splitting a dataset succeeds iff all indices are genuine integers in range with no repetition across partitions, and then yields exactly the requested samples in order.", "quantifier": "every partition argument", "why_tests_cant": "all index lists", "anchors": ["decent_bench/datasets/_dataset_handler.py: _resolve_partitions"]}
{"id": "C49", "title": "Mini-batch sampling is epoch-wise", "statement": "Every drawn batch has exactly batch_size distinct valid indices; between two reshuffles no sample is used twice, and every sample is used at least once before any sample is used a third time; other index arguments are used as given.", "quantifier": "every sequence of draws and permutations, every n and batch size", "why_tests_cant": "all permutations and unbounded draws", "anchors": ["decent_bench/costs/_empirical_risk/_empirical_risk_cost.py: _sample_batch_indices"]}
{"id": "C50", "title": "Observing a run must not change it", "statement": "Runtime metrics are documented as monitoring; for empirical-risk costs with mini-batches they evaluate the loss with the default batch, advancing the batch sampler and random stream, so enabling a runtime metric changes the subsequent batches (refutation); counters are unaffected.", "quantifier": "every interleaving of metric evaluations (refuted concretely, counter part for all)", "why_tests_cant": "interference is a property of pairs of executions", "anchors": ["decent_bench/metrics/runtime_library.py", "decent_bench/metrics/_runtime_metric.py: update_plot", "decent_bench/costs/_empirical_risk/_empirical_risk_cost.py"]}
{"id": "C51", "title": "Cost algebra is pointwise", "statement": "Any cost expression built with +, -, *, /, unary minus and sum evaluates - value, gradient and Hessian - to the corresponding pointwise combination of its atoms, regardless of nesting, flattening, zero costs, scaled and regulariser-preserving special cases.", "quantifier": "every finite expression over arbitrary atoms and every point", "why_tests_cant": "unbounded expression trees", "anchors": ["decent_bench/costs/_base/_cost.py, _sum_cost.py, _scaled_cost.py, _zero_cost.py, _regularizer_costs.py: __add__, __mul__, ..."]}
{"id": "C52", "title": "Smoothness and convexity constants are sound under composition", "statement": "If the atoms' m_smooth are Lipschitz constants of their gradients and their m_cvx strong-convexity constants (NaN meaning unknown), then so are those reported by every sum / scaled / composite cost.", "quantifier": "every expression and atoms", "why_tests_cant": "unbounded expression trees", "anchors": ["decent_bench/costs/_base/_sum_cost.py, _scaled_cost.py, _regularizer_costs.py: m_smooth, m_cvx"]}
{"id": "C53", "title": "Proximal operators are minimisers", "statement": "The closed-form proximals (L1, L2, zero, positively scaled, quadratic with symmetric PSD part, linear regression) return the unique minimiser of f(z) + ||z - x||^2/(2 penalty).", "quantifier": "every point, penalty > 0 and parameters", "why_tests_cant": "optimality over all z", "anchors": ["decent_bench/costs/_base/_regularizer_costs.py, _quadratic_cost.py, _scaled_cost.py, _zero_cost.py", "decent_bench/costs/_empirical_risk/_linear_regression_cost.py: proximal"]}
{"id": "C54", "title": "Centralised solution of quadratic costs", "statement": "For a quadratic cost with symmetric positive definite A, solve() returns the unique minimiser; for a non-symmetric A it solves with A instead of its symmetric part and returns a point that is not stationary (refutation).", "quantifier": "every symmetric positive definite A; concrete refutation otherwise", "why_tests_cant": "all matrices", "anchors": ["decent_bench/centralized_algorithms.py: solve", "decent_bench/costs/_base/_quadratic_cost.py"]}
{"id": "C55", "title": "Gradients are the derivatives of the functions", "statement": "gradient() is the derivative of function() for quadratic, L2, fractional-quadratic, linear-regression and logistic costs, and the mean of the per-sample gradients equals the gradient.", "quantifier": "every parameter, data set and point", "why_tests_cant": "all points", "anchors": ["decent_bench/costs/_base/_quadratic_cost.py, _regularizer_costs.py", "decent_bench/costs/_empirical_risk/_linear_regression_cost.py, _logistic_regression_cost.py"]}
{"id": "C56", "title": "Binary label encoding of logistic regression", "statement": "Logistic regression re-encodes the two class labels as 0/1. The in-place replacement is correct iff the label enumerated second is not 0; if it is 0 (e.g. digits 8 and 0 with 8 enumerated first) every sample is encoded as 1.", "quantifier": "every two-label data set and enumeration order", "why_tests_cant": "all labels and orders", "anchors": ["decent_bench/costs/_empirical_risk/_logistic_regression_cost.py: __init__, _get_batch_data"]}
{"id": "C57", "title": "Explicit indices select exactly those samples", "statement": "Evaluating an empirical-risk cost with an explicit index list uses exactly these samples, per-sample gradients being aligned with batch_used. Refuted for lists whose length equals the data size: the full data in storage order is used, so repeated or permuted indices give wrong results.", "quantifier": "every index list (refuted; proved for lists of other length and for 'all')", "why_tests_cant": "all index lists", "anchors": ["decent_bench/costs/_empirical_risk/_linear_regression_cost.py: _get_batch_data", "decent_bench/costs/_empirical_risk/_logistic_regression_cost.py: _get_batch_data"]}
{"id": "C58", "title": "Proximal of logistic regression preserves the batch size", "statement": "Computing a proximal leaves the cost's batch size as it was; refuted when the solver raises (invalid penalty), after which the cost silently runs full-batch.", "quantifier": "every call outcome", "why_tests_cant": "exceptional paths", "anchors": ["decent_bench/costs/_empirical_risk/_logistic_regression_cost.py: proximal"]}
{"id": "C59", "title": "Centralised solver stopping rules", "statement": "Solver.run performs between 1 and max_iter steps, stops early only when the squared change is at most stop_tol at a checked iteration, and when max_tol is given returns normally only if the last squared change is at most max_tol.", "quantifier": "every step function, tolerances and check frequency", "why_tests_cant": "all trajectories", "anchors": ["decent_bench/centralized_algorithms.py: Solver.run"]}
{"id": "C60", "title": "Metric values are sanitised", "statement": "Every value in computed metric frames is a finite number of magnitude at most 1e30 or a signed infinity - never NaN; finite values within the bound are unchanged.", "quantifier": "every raw metric value", "why_tests_cant": "all floats", "anchors": ["decent_bench/benchmark/_compute/compute_metrics_at_iter.py"]}
{"id": "C61", "title": "Table metrics agree with plot metrics", "statement": "A table metric taken from an already computed plot series equals recomputing the metric at the last iteration, for every algorithm and trial.", "quantifier": "every combination of computed metrics and iteration sets", "why_tests_cant": "all caches states", "anchors": ["decent_bench/benchmark/_compute/compute_tables.py, compute_plots.py"]}
{"id": "C62", "title": "Progress bar reaches its total", "statement": "When every trial has an iteration left to run, each algorithm's bar ends at exactly its total, for every iteration number, progress step, mixture of fresh, resumed and already complete trials, and interleaving of the trials' messages; a trial resumed from a checkpoint of its last iteration sends nothing, so the bar falls short. At most the configured number of bars is visible, the latest started ones.", "quantifier": "every iteration count, progress step, resume point, number of trials and message interleaving", "why_tests_cant": "all combinations", "anchors": ["decent_bench/utils/progress_bar.py", "decent_bench/benchmark/_benchmark.py: _run_trial"]}
{"id": "C63", "title": "Plot styles are unique", "statement": "The first (#markers x #line styles) algorithms get pairwise different (marker, style) combinations.", "quantifier": "every pair of algorithm indices", "why_tests_cant": "all pairs", "anchors": ["decent_bench/benchmark/_display/display_plots.py: _get_marker_style_color"]}
{"id": "C64", "title": "Duplicate detection in names", "statement": "Algorithm names, metric descriptions are accepted iff pairwise distinct; reported duplicates are exactly the names occurring more than once.", "quantifier": "every list of names", "why_tests_cant": "all lists", "anchors": ["decent_bench/benchmark/_utils.py: _find_duplicates", "decent_bench/benchmark/_benchmark.py: _validate_unique_algorithm_names"]}
{"id": "C65", "title": "P2P runs compute the documented recursions", "statement": "With all agents active and lossless communication, the states x produced by DGD, SimpleGT, ED, NIDS, EXTRA, Wang-Elia, Aug-DGM and ATC-Tracking after k iterations are exactly the k-th terms of the recursions in their documentation, for every k.", "quantifier": "every network, mixing matrix, cost functions, initial states, step size and number of iterations", "why_tests_cant": "equality of two recursions for all networks, costs and iteration counts", "anchors": ["decent_bench/algorithms/p2p/_dgd.py, _simple_gt.py, _ed.py, _nids.py, _extra.py, _wang_elia.py, _aug_dgm.py, _atc_tracking.py: initialize, step"]}
{"id": "C66", "title": "Client participation accounting", "statement": "In every federated round the selected clients are distinct clients of the network; each client's selection counter grows by one exactly when it was selected, never exceeds the number of rounds, and only selected clients receive the broadcast, train and upload; with no selection scheme and all clients active every client is selected in every round.", "quantifier": "every federated algorithm, network behaviour, selection scheme honouring its contract and number of rounds", "why_tests_cant": "all participation histories", "anchors": ["decent_bench/algorithms/federated/_fed_algorithm.py: select_clients, _record_selected_clients", "decent_bench/agents.py"]}
{"id": "C67", "title": "Stratified split follows label proportions (bounded drift; not closest)", "statement": "In a stratified split the label composition of every partition does not depend on the random draws, and every partition's count of a label deviates from its exact share by less than the number of labels. The documented 'as closely as integer partition sizes allow' is refuted: a partition can receive none of the majority label although an allocation within one of every exact share exists.", "quantifier": "every dataset, label assignment, sizes and random draw (refuted concretely for every draw)", "why_tests_cant": "the deviation accumulates over labels processed in order; tests on balanced data never see it, and determinism of the composition ranges over all draws", "anchors": ["decent_bench/datasets/partitioners/_stratified_iid.py: split_stratified_iid", "decent_bench/datasets/partitioners/_utils.py: _proportional_counts"]}
{"id": "C68", "title": "Solvers must not modify the caller's starting point", "statement": "Running a centralised solver leaves the caller's x0 array as it was. Proved for accelerated gradient descent on every framework and for gradient descent where arrays are immutable; refuted for gradient descent on NumPy and PyTorch: after every successful run the caller's array holds the result.", "quantifier": "every cost, step size, starting point, tolerances and run length", "why_tests_cant": "the alias is invisible in the returned value and depends on the framework", "anchors": ["decent_bench/centralized_algorithms.py: Solver.__init__, GradientDescent.step, AcceleratedGradientDescent.step"]}
{"id": "C69", "title": "Gradient descent converges with its default step size", "statement": "For every convex L-smooth cost, gradient descent with its default step never increases the cost, is after n steps within L||x0-z||^2/(2n) of the minimum, contracts the distance to the minimiser by (L-m)/(L+m) per step if the cost is m-strongly convex, and then the size of the last move bounds the remaining distance.", "quantifier": "every described cost expression, starting point and number of steps", "why_tests_cant": "rates hold for all costs and all n; tests sample a few", "anchors": ["decent_bench/centralized_algorithms.py: GradientDescent"]}
{"id": "C70", "title": "Accelerated gradient descent reaches the accelerated rates", "statement": "For every convex L-smooth cost, accelerated gradient descent with its defaults is after n steps within 2L||x0-z||^2/(n+1)^2 of the minimum, and for m-strongly convex costs within (1-sqrt(m/L))^n (f(x0)-f(z)+m/2||x0-z||^2).", "quantifier": "every described cost expression, starting point and number of steps", "why_tests_cant": "needs the Lyapunov argument for all costs and n", "anchors": ["decent_bench/centralized_algorithms.py: AcceleratedGradientDescent"]}
{"id": "C71", "title": "Accuracy of solve", "statement": "For costs without a closed form and finite constants, solve runs accelerated gradient descent and without tolerances its result obeys the accelerated rate for max_iter; constant costs are refused. The tolerances give no accuracy guarantee: for every stop tolerance there are convex costs on which solve stops and returns normally arbitrarily far from every minimiser.", "quantifier": "every cost expression; refutation for every tolerance and distance", "why_tests_cant": "the refutation is uniform in the tolerance; no finite set of tests shows it", "anchors": ["decent_bench/centralized_algorithms.py: solve, Solver.run"]}
{"id": "C72", "title": "Accuracy of the iterative proximal", "statement": "The generic proximal solver returns a point whose proximal objective is within the accelerated rate of the exact proximal, for every convex smooth cost; non-positive penalties and costs that do not live on NumPy/CPU are refused with ValueError, unbounded or unknown constants with NotImplementedError.", "quantifier": "every cost expression, point, penalty and iteration limit", "why_tests_cant": "all costs, penalties and iteration counts", "anchors": ["decent_bench/centralized_algorithms.py: proximal_solver"]}
{"id": "C73", "title": "Aggregation across agents and trials", "statement": "A plotted point is the mean, min and max over exactly one algorithm's trials of the mean over agents of the cleaned values; a table cell is the mean and standard deviation over trials of the statistic over agents. Both are independent of trial order, the mean lies between min and max, and a diverging agent makes the mean infinite. Limits: the std rows silently leave out diverged trials, and a trial with both +inf and -inf vanishes from the plot.", "quantifier": "every metric, set of algorithms, trials and values including infinities", "why_tests_cant": "all value patterns, including non-finite ones, and all group structures", "anchors": ["decent_bench/benchmark/_compute/compute_tables.py", "decent_bench/benchmark/_compute/compute_plots.py"]}
{"id": "C74", "title": "Measured convergence rate", "statement": "For each candidate breakpoint the closed formula is the unique least-squares elbow curve and its residual norm; the fit succeeds iff the arguments are valid and at least two values are finite; an exactly geometric error (possibly followed by values that cannot be drawn on a log scale) gets exactly its ratio; if the grid has room for every breakpoint the result is the best elbow curve, and an error that levels off gets exactly its ratio (default arguments: up to 11 values). Refuted: the returned breakpoint is one less than the documented one and does not fit; with default arguments the refined grid can discard the exact fit and return a worse one (83 values, breakpoint 10, every ratio except 1); a non-finite value inside the trajectory distorts the rate (q becomes q^2).", "quantifier": "every trajectory length, ratio, scale, breakpoint and argument of the fit", "why_tests_cant": "ranges over all real trajectories", "anchors": ["decent_bench/metrics/utils.py: linear_convergence_rate, fit_elbow_curve, _fit_elbow_curve_given_breakpoint"]}
{"id": "C75", "title": "Metrics of the agents' states", "statement": "The mean state at iteration k averages every agent's last recorded state up to k; regret, gradient norm and x error are the suboptimality, gradient norm and distance to the optimum of that mean under the average cost; regret is non-negative and zero exactly at an optimum; for convex costs regret <= gradient norm * x error and for strongly convex smooth costs the three are equivalent; consensus errors vanish iff all agents agree; runtime metrics agree with the recorded ones. Not guaranteed: that agents which stopped early are disregarded (they count with their last state, so a failed trial is a flat line), that runtime regret is non-negative or uses one batch, or that the runtime gradient norm vanishes at the optimum.", "quantifier": "every number of agents, every recorded history, iteration, cost and reference", "why_tests_cant": "ranges over all histories and cost functions", "anchors": ["decent_bench/metrics/utils.py: x_mean, _regret, _gradient_norm, _x_error, _drifts, _losses", "decent_bench/metrics/metric_library.py: Regret, GradientNorm, XError, ConsensusError, Loss, ClientDriftFromServer", "decent_bench/metrics/runtime_library.py"]}
{"id": "C76", "title": "Fraction of selected clients", "statement": "In a completed run the fraction is the average over rounds of (clients selected in the round)/(clients), in [0,1]; it is NaN without clients or rounds. For trials stopped by an error between two snapshots it can exceed 1.", "quantifier": "every number of clients, rounds and every selection sequence", "why_tests_cant": "all selection histories", "anchors": ["decent_bench/metrics/metric_library.py: FractionSelectedClients", "decent_bench/metrics/utils.py: _observed_rounds", "decent_bench/benchmark/_benchmark.py: _run_trial"]}
{"id": "C77", "title": "What the plots draw", "statement": "Divergence truncates a curve at the first infinite value of its algorithm and changes nothing else; on a logarithmic y axis every drawn number is positive and positive numbers are unchanged; on a logarithmic x axis all iterations are positive and shifted uniformly; figures partition the metrics in order; each plot draws each algorithm of the first metric once with exactly its rows. Not guaranteed: the mean inside its band after lifting, a cost axis ending at the documented total cost, and an algorithm that is infinite from the start in the first metric is missing from all plots.", "quantifier": "every aggregated frame, number of metrics, algorithms, axis scaling and cost coefficients", "why_tests_cant": "ranges over all data, including non-finite values at any position", "anchors": ["decent_bench/benchmark/_display/display_plots.py"]}
{"id": "C78", "title": "Selecting metrics and algorithms to display", "statement": "Something is displayed iff a requested algorithm and a requested metric are available; the displayed rows are exactly those whose metric and algorithm were both requested, in their order, and the raw frames follow the same selection.", "quantifier": "every metrics result and every requested subset of names", "why_tests_cant": "all selections of all results", "anchors": ["decent_bench/benchmark/_display/_display_metrics.py", "decent_bench/benchmark/_metric_result.py"]}
{"id": "C79", "title": "Prediction metrics", "statement": "Accuracy is the fraction of correctly predicted test samples, in [0,1], 1 iff all are correct; with the micro averaging used, precision and recall are always equal to accuracy; for 0/1 labels MSE = 1 - accuracy; server metrics are NaN exactly for non-finite predictions. One agent's non-finite prediction makes the metric of every agent NaN and then +inf.", "quantifier": "every number of classes, samples, agents and every prediction", "why_tests_cant": "all label and prediction vectors", "anchors": ["decent_bench/metrics/utils.py: _accuracy, _precision, _recall, _mse, _accuracy_at_x, _mse_at_x", "decent_bench/metrics/metric_library.py: Accuracy, Precision, Recall, MSE, ServerAccuracy, ServerMSE"]}
{"id": "C80", "title": "ED and NIDS find the minimiser of the sum, linearly, for every step size below 2/L", "statement": "On a connected network with perfect communication and full-batch costs that are m-strongly convex and L-smooth, the sum of the costs has exactly one minimiser, and every run of ED or NIDS with 0 < step_size < 2/L brings every agent's x to it at a linear rate: the squared distance after k iterations is at most C r^k with r < 1 not depending on the initial states.", "quantifier": "all connected simple networks of any size, all dimensions, all smooth strongly convex local costs, all step sizes below 2/L, all initial states (different per agent), all numbers of iterations", "why_tests_cant": "A test runs finitely many iterations on a few graphs and costs; the claim is about the limit, for every graph, cost and step size in the range.", "anchors": ["decent_bench/algorithms/p2p/_ed.py: ED.initialize/step", "decent_bench/algorithms/p2p/_nids.py: NIDS.initialize/step", "decent_bench/networks.py: P2PNetwork.weights"]}
{"id": "C81", "title": "EXTRA finds the minimiser of the sum, linearly, for step sizes below 2 min_i W_ii / L", "statement": "Under the assumptions of C80, every run of EXTRA with 0 < step_size and step_size * L < 2 d, d a positive lower bound of the agents' self-weights, brings every agent's x to the minimiser of the sum of the costs at a linear rate. With the default weights step_size < 2 / ((1 + D) L) suffices, D the largest number of neighbours of an agent.", "quantifier": "all connected simple networks, dimensions, smooth strongly convex local costs, step sizes in the range, initial states and numbers of iterations", "why_tests_cant": "Linear convergence for all graphs, costs and step sizes in a range is a statement about limits of infinitely many runs.", "anchors": ["decent_bench/algorithms/p2p/_extra.py: EXTRA.initialize/step", "decent_bench/networks.py: P2PNetwork.weights"]}
{"id": "C82", "title": "DGD converges linearly, but to a point biased by O(step size)", "statement": "Under the assumptions of C80 (connectedness only for the bias), DGD with step_size * L < 2 d converges linearly from all initial states to one stationary point of its update, the only one; that point is a common vector x at all agents only if every single agent's own gradient vanishes at x; and there is a constant C not depending on the step size such that it is within C * step_size of the minimiser of the sum at every agent.", "quantifier": "all simple networks, dimensions, smooth strongly convex local costs, step sizes in the range, initial states and numbers of iterations", "why_tests_cant": "It is a claim about limits for every problem and about a constant uniform over all step sizes.", "anchors": ["decent_bench/algorithms/p2p/_dgd.py: DGD.initialize/step", "decent_bench/networks.py: P2PNetwork.weights"]}
{"id": "C83", "title": "ADMM computes its documented iterates and finds the minimiser of the sum, linearly, for all penalties and relaxations", "statement": "With perfect communication every run of ADMM in which each agent has a neighbour succeeds and computes the documented x and z iterates, from x0 or from the proximal start if only z0 is given. If the network is connected, the costs are smooth and strongly convex and their proximal operators exact, every agent's x converges linearly to the minimiser of the sum of the costs for every penalty > 0 and relaxation in (0, 1) and every start. An agent without neighbours makes run raise ZeroDivisionError.", "quantifier": "all networks without isolated agents, dimensions, costs, penalties, relaxations, initial x and z, and numbers of iterations", "why_tests_cant": "A test runs finitely many iterations on a few graphs and costs; the claim is about the limit for every graph, cost, penalty and relaxation.", "anchors": ["decent_bench/algorithms/p2p/_admm.py: ADMM.initialize/step"]}
{"id": "C84", "title": "ADMM's resting states are exactly the optimal ones and survive any losses and inactivity", "statement": "A state of ADMM with x_i the local solution for the current z and z_ij + z_ji = 2 penalty x_j is left unchanged by every further iteration, whatever agents are active and whatever messages are lost. On a connected network with smooth strongly convex costs such a state exists with all x equal to the minimiser of the sum, in every such state all agents hold that minimiser, and a lossless iteration leaves a state unchanged only if it is such a state.", "quantifier": "all activation and loss behaviours, all networks, costs, penalties, relaxations, states and numbers of further iterations", "why_tests_cant": "It ranges over every pattern of activity and losses and every state.", "anchors": ["decent_bench/algorithms/p2p/_admm.py: ADMM.step", "decent_bench/networks.py: P2PNetwork.send"]}
{"id": "C85", "title": "LT-ADMM computes the documented local-training iterates, rests exactly at the optimum, and LT-ADMM-VR with whole batches is LT-ADMM", "statement": "With perfect communication every run of LT-ADMM succeeds and computes: num_local_steps gradient steps with a correction fixed at the start of the round, then the relaxed z update. Its resting states survive any losses and inactivity, exist at the minimiser of the sum, and are only there; with step_size < 2/L an unchanged state is a resting state, for every number of local steps. LT-ADMM-VR, in both variants, computes the same iterates when every batch contains all samples.", "quantifier": "all networks, costs, numbers of local steps, parameters, initial states, numbers of iterations, loss and activity patterns", "why_tests_cant": "A test runs finitely many iterations on a few graphs and costs; local steps, graphs, losses and parameters are unbounded.", "anchors": ["decent_bench/algorithms/p2p/_lt_admm.py: LT_ADMM.initialize/step/_local_training", "decent_bench/algorithms/p2p/_lt_admm_vr.py: LT_ADMM_VR._local_training"]}
{"id": "C86", "title": "ATG tracks: its unchanged states are consensual optima; its z update is not the one in its docstring", "statement": "With perfect communication every run of ATG computes y, s, x as documented and z_ij = (1-a) z_ij - a (z_ji - 2 rho y_j) with the sender's y and s, not the receiver's as the class docstring writes: on every lossless network there are starts for which one iteration differs from the docstring. A state that an iteration leaves unchanged has all agents at the minimiser of the sum of the costs. An agent without neighbours makes run raise ValueError.", "quantifier": "all networks, costs, parameters, states and numbers of iterations", "why_tests_cant": "A test runs finitely many iterations on a few graphs and costs; the fixed-point claim is about all states and graphs.", "anchors": ["decent_bench/algorithms/p2p/_atg.py: ATG.initialize/step"]}
{"id": "C87", "title": "Variance reduction: exact with fresh memory, unbiased at the start of an epoch, and a memory that only holds past gradients", "statement": "For costs that are means over samples and whatever batches are drawn: GT-VR with a snapshot in every iteration is Aug-DGM with full gradients; the first iteration of GT-SAGA and every one-local-step round of LT-ADMM-VR (v2=False) use full gradients; GT-SARAH without inner steps, or with whole batches, performs num_inner_steps + 1 rounds of exact gradient tracking per iteration. Averaged over all shuffles at the start of an epoch, the directions of GT-SAGA, GT-VR and LT-ADMM-VR are the full gradients, whatever their memory holds; inside an epoch the next batch is determined by the previous ones. GT-SAGA's and LT-ADMM-VR-2's tables hold gradients at past iterates, and exactly the drawn rows are refreshed.", "quantifier": "all networks with perfect communication, dimensions, sample costs, batch sequences, batch sizes, tables, snapshots, states and numbers of iterations", "why_tests_cant": "It quantifies over every sequence of random batches and over expectations.", "anchors": ["decent_bench/algorithms/p2p/_gt_saga.py: GT_SAGA.step", "decent_bench/algorithms/p2p/_gt_vr.py: GT_VR.step", "decent_bench/algorithms/p2p/_gt_sarah.py: GT_SARAH.step", "decent_bench/algorithms/p2p/_lt_admm_vr.py: LT_ADMM_VR._local_training", "decent_bench/costs/_empirical_risk/_empirical_risk_cost.py: _sample_batch_indices"]}
{"id": "C88", "title": "FedPD rounds: local augmented steps, dual update, centre synchronisation, silence", "statement": "A FedPD iteration never raises. Clients that are inactive keep all their variables; every other client makes exactly its number of gradient steps on its local augmented Lagrangian from its own model, then the documented dual step. The server's model becomes the uniform mean of the centre candidates x + penalty*lambda it received; if it received none it is unchanged and nobody is answered. A client that got the answer takes it as its centre, any other participant keeps its own candidate. With skip_probability 1, or if all uploads are lost, the server's model never changes. Over an ideal network the run is the documented recursion, and the server's model is the extrapolation 2*mean(x_k) - mean(x_{k-1}), not the mean of the client models.", "quantifier": "all federated networks, activation schemes, drop/compression/noise behaviours, coins, gradient oracles, numbers of local steps per client, states and numbers of iterations", "why_tests_cant": "Which messages are lost, which clients are active and the mini-batches are arbitrary; the run-level claims are for every number of rounds.", "anchors": ["decent_bench/algorithms/federated/_fed_pd.py: FedPD.step", "decent_bench/algorithms/federated/_fed_pd.py: FedPD._run_local_updates", "decent_bench/algorithms/federated/_fed_pd.py: FedPD.aggregate", "decent_bench/algorithms/federated/_fed_pd.py: FedPD.initialize"]}
{"id": "C89", "title": "FedPD stops only at a solution, and with one local step it converges linearly", "statement": "Over an ideal network with exact gradients: if a round leaves all client variables unchanged (any numbers of local steps, step_size*(L+1/penalty) <= 1, convex smooth costs) then all client models, centres and the server's model equal one minimiser of the summed costs and the duals are minus the local gradients; conversely that state is left unchanged. For strongly convex smooth costs, one local step and step_size*(L+1/penalty) < 1, client models, server model and duals converge linearly to it from every start.", "quantifier": "all numbers of clients, dimensions, convex/strongly convex smooth costs, step sizes and penalties in the stated range, initial states, numbers of rounds", "why_tests_cant": "Convergence and the characterisation of resting states range over all cost functions and all times.", "anchors": ["decent_bench/algorithms/federated/_fed_pd.py: FedPD.step", "decent_bench/algorithms/federated/_fed_pd.py: FedPD._compute_local_update"]}
{"id": "C90", "title": "FedAvg and FedProx converge, to the optimum only for one local step or shared minimisers", "statement": "Over an ideal network with exact gradients and all clients taking part, k rounds of FedProx are k applications of 'mean over the clients of num_local_steps proximal gradient steps'. For strongly convex smooth costs and step_size*(L+penalty) <= 1 that map has exactly one unchanged model, and FedProx (FedAvg with penalty 0) converges to it linearly from every initial model. With one local step it is the minimiser of the summed costs (for every penalty); if the clients share a minimiser it is that one for any number of local steps. Otherwise it need not be: for two explicit clients with different curvature, FedAvg with any num_local_steps >= 2 and any step_size <= 1/2 does not leave the optimum unchanged, so it does not converge to it.", "quantifier": "all numbers of clients, dimensions, strongly convex smooth costs, step sizes, penalties, numbers of local steps, initial models and numbers of rounds", "why_tests_cant": "Limits and uniqueness of resting models range over all costs and all times; a test observes a finite run with a tolerance that hides the bias.", "anchors": ["decent_bench/algorithms/federated/_fed_avg.py: FedAvg._compute_local_update", "decent_bench/algorithms/federated/_fed_prox.py: FedProx._compute_local_update", "decent_bench/algorithms/federated/_fed_algorithm.py: FedAlgorithm.aggregate"]}
{"id": "C91", "title": "SCAFFOLD: where it stops, convergence with one local step, and the permanent bias of a lost upload", "statement": "For ideal rounds with exact gradients of smooth costs and any number of local steps: if a SCAFFOLD round leaves the server's model and the control variates unchanged, the server's control variate is zero, the clients' are their gradients, and the mean gradient equals minus the discrepancy between the server's control variate and the mean of the clients'. So a run without lost uploads stops only at a minimiser (convex costs), and that state is left unchanged. With one local step the server's model converges linearly from every state to the point where the mean gradient is minus the discrepancy; in particular one upload lost in the first round makes an otherwise ideal run converge to a model that is not the minimiser.", "quantifier": "all numbers of clients, dimensions, smooth costs, step sizes in the stated range, numbers of local steps, states, numbers of rounds, losses of broadcasts and participation before the resting round", "why_tests_cant": "Resting points and limits range over all costs, states and times; a test with drops sees an error that looks like slow convergence.", "anchors": ["decent_bench/algorithms/federated/_scaffold.py: Scaffold._compute_local_update", "decent_bench/algorithms/federated/_scaffold.py: Scaffold.aggregate", "decent_bench/algorithms/federated/_scaffold.py: Scaffold.initialize"]}
{"id": "C92", "title": "FedDyn: where it stops, gradient-descent case, and the permanent bias of a lost upload", "statement": "For ideal rounds with exact gradients of smooth costs and any number of local steps: if a FedDyn round leaves the server's model and the clients' dynamic states unchanged, then h = 0, the dynamic states are the local gradients, all models agree, and the mean gradient is minus the discrepancy between h and the mean dynamic state; a run without lost uploads stops only at a minimiser, and that state is left unchanged. With one local step (x, h) follows an explicit linear recursion, and for alpha = 1/(2 step_size) the model converges linearly to the point where the mean gradient is minus the discrepancy; one lost upload in the first round makes that point differ from the minimiser.", "quantifier": "all numbers of clients, dimensions, smooth costs, step sizes and alpha in the stated range, numbers of local steps, states, numbers of rounds", "why_tests_cant": "Resting points and limits range over all costs, states and times.", "anchors": ["decent_bench/algorithms/federated/_fed_dyn.py: FedDyn._compute_local_update", "decent_bench/algorithms/federated/_fed_dyn.py: FedDyn.aggregate"]}
{"id": "C93", "title": "Fed-LT stops only at a minimiser of server cost plus client costs", "statement": "Fed-LT with the gradient-descent local solver, any number of local steps, step_size*(L+1/penalty) < 2, convex smooth client costs and a convex server cost used through its proximal: if an ideal round leaves the clients' variables unchanged then all client models equal the server's model, and it minimises the server's cost plus the sum of the clients' costs. Conversely (server without cost) the state x_i = x*, z_i = x* - penalty*grad f_i(x*) is left unchanged.", "quantifier": "all numbers of clients, dimensions, costs, step sizes and penalties in range, numbers of local steps, states", "why_tests_cant": "Ranges over all costs and states.", "anchors": ["decent_bench/algorithms/federated/_fed_lt.py: FedLT.step", "decent_bench/algorithms/federated/_fed_lt.py: FedLT._compute_server_y", "decent_bench/algorithms/federated/_fed_lt.py: FedLT._compute_local_update"]}
{"id": "C94", "title": "Runtime metrics: publication schedule, isolation from the trial, and trials that raise", "statement": "Metrics that only read the trial never change it: whatever they answer or raise, whatever their non-zero update intervals and whichever messages the plotter queue refuses, the returned network, the checkpoints and the completed result are those of the trial without metrics. A metric publishes exactly at the iterations its interval divides and at the algorithm's last iteration, in order, each with its value on the network as that iteration left it (every due message if the queue takes them all). An update interval of 0 ends the trial after its first iteration, silently, never marked complete. A trial in which initialize or step raises returns the network as the failing call left it, not cleaned up and not marked complete, with the checkpoints of the iterations before; a successful one stores the network before cleanup and returns it cleaned up. Without a plotter queue no metric is evaluated.", "quantifier": "all algorithms (as state transformers that may raise anywhere), metrics lists, intervals, queue refusals, checkpoint schedules, start iterations and iteration counts", "why_tests_cant": "Ranges over all failure points, intervals, resume points and metric behaviours.", "anchors": ["decent_bench/benchmark/_benchmark.py: _run_trial", "decent_bench/benchmark/_benchmark.py: _get_runtime_metrics", "decent_bench/metrics/_runtime_metric.py: RuntimeMetric.should_update", "decent_bench/metrics/_runtime_metric.py: RuntimeMetric.update_plot", "decent_bench/algorithms/_algorithm.py: Algorithm.run"]}
{"id": "C95", "title": "Values of the predefined runtime metrics", "statement": "RuntimeRegret equals (1/N) sum f_i(x_i) - (1/N) sum f_i(x*) at every call although the second term is cached at the first call (deterministic costs); for costs that change between calls (mini-batches) the subtracted term stays the one of the first call; without x_optimal it is nan. In agreement it is >= 0 and zero exactly at minimisers; in disagreement it can be negative but, for L-Lipschitz costs, not below -L times the runtime consensus error. RuntimeGradientNorm is zero exactly when every agent is at a stationary point of its own cost, so it need not vanish at a solution. RuntimeConsensusError is zero exactly in agreement and bounds every agent's distance to the average by N times its value. RuntimeLoss is the mean own cost.", "quantifier": "all agent lists, cost functions, points, sequences of calls", "why_tests_cant": "Ranges over all costs, points and call sequences.", "anchors": ["decent_bench/metrics/runtime_library.py: RuntimeLoss.compute", "decent_bench/metrics/runtime_library.py: RuntimeRegret.compute", "decent_bench/metrics/runtime_library.py: RuntimeGradientNorm.compute", "decent_bench/metrics/runtime_library.py: RuntimeConsensusError.compute"]}
{"id": "C96", "title": "The runtime plotter draws what was sent, per metric class, algorithm and trial", "statement": "For any sequence of messages: the line of (metric class, algorithm name, trial) shows exactly the finite values sent for it after the class's first init message, in queue order; every interleaving of trials' messages in which each trial sends its inits first loses nothing and draws the same lines as any other. There is one figure per metric class, described by the first init message; at shutdown the figures whose first init message had a save path are saved there, and only there; after a keyboard interrupt none. The lines of one (algorithm, trial) have the same colour index in all figures, those of different ones different indices, and two indices look alike exactly if they agree modulo 1092.", "quantifier": "all message sequences, interleavings, metric names, algorithms, trials, values (including nan and infinities)", "why_tests_cant": "Ranges over all interleavings of messages of concurrently running trials.", "anchors": ["decent_bench/metrics/_runtime_metric_plotter.py: RuntimeMetricPlotter._process_message", "decent_bench/metrics/_runtime_metric_plotter.py: RuntimeMetricPlotter.create_figure", "decent_bench/metrics/_runtime_metric_plotter.py: RuntimeMetricPlotter.update", "decent_bench/metrics/_runtime_metric_plotter.py: RuntimeMetricPlotter._close_all", "decent_bench/benchmark/_display/display_plots.py: _get_marker_style_color"]}
{"id": "C97", "title": "PyTorchCost: which samples an evaluation uses", "statement": "After any history of evaluations and pickling, an evaluation that succeeds computes on the samples batch_used then names, in that order, in pieces of at most max_batch_size. \"all\" is the whole data set; an explicit list (or index) selects itself, except that a list as long as a loaded data set is silently replaced by the whole data set in order; with load_dataset=False it is respected. \"batch\" is a set of batch_size different samples; without a data loader batches come in epochs of floor(n/b) consecutive pieces of one random order (every sample exactly once if b divides n, otherwise the last n mod b samples of each order are dropped); with a data loader in passes of ceil(n/b) batches that use every sample exactly once. \"all\" and \"batch\" never fail; unknown strings and empty lists raise ValueError, indices out of range IndexError. Without a data loader, pickling at any point changes no evaluation; the cached last batch is invisible. The constructor accepts exactly \"all\" and 1 <= batch_size <= n.", "quantifier": "all data sets, batch sizes, generators, histories of evaluations and pickling", "why_tests_cant": "Ranges over all call histories, random permutations and pickling points.", "anchors": ["decent_bench/costs/_empirical_risk/_pytorch_cost.py: PyTorchCost._handle_indices", "decent_bench/costs/_empirical_risk/_pytorch_cost.py: PyTorchCost._get_batch_data", "decent_bench/costs/_empirical_risk/_pytorch_cost.py: PyTorchCost._handle_dataloader", "decent_bench/costs/_empirical_risk/_pytorch_cost.py: PyTorchCost.__getstate__", "decent_bench/costs/_empirical_risk/_pytorch_cost.py: PyTorchCost.__setstate__", "decent_bench/costs/_empirical_risk/_pytorch_cost.py: PyTorchCost.__init__"]}
{"id": "C98", "title": "PyTorchCost: function, gradient, per-sample gradients and predict", "statement": "A flat vector of the model's size is cut into the parameter tensors in order and read back unchanged; any other size raises ValueError. For a loss averaging over the batch, function and gradient are the means over the samples named by batch_used of the sample losses and gradients at x, and per-sample gradients list them row by row in that order, for every positive max_batch_size: max_batch_size changes no value, batch or error. The gradient's entries are the partial derivatives of the value function gives on the same batch. No evaluation changes a tensor. For a loss that sums over the batch, function depends on max_batch_size (the sum in one chunk, the mean with chunks of one). max_batch_size is not validated: 0 makes every evaluation fail, a negative value makes every value 0 and every gradient zero. predict gives one output per input, in order.", "quantifier": "all networks (as functions of parameters and batch), parameters, data, indices, histories, max_batch_size values", "why_tests_cant": "Ranges over all networks, batches and chunkings.", "anchors": ["decent_bench/costs/_empirical_risk/_pytorch_cost.py: PyTorchCost.function", "decent_bench/costs/_empirical_risk/_pytorch_cost.py: PyTorchCost.gradient", "decent_bench/costs/_empirical_risk/_pytorch_cost.py: PyTorchCost._per_sample_gradients", "decent_bench/costs/_empirical_risk/_pytorch_cost.py: PyTorchCost.predict", "decent_bench/costs/_empirical_risk/_pytorch_cost.py: PyTorchCost._set_model_parameters", "decent_bench/costs/_empirical_risk/_pytorch_cost.py: PyTorchCost._get_model_parameters"]}
{"id": "C99", "title": "PyTorchCost: local training", "statement": "Local training that succeeds does, for each iteration, one batch of the kind asked for, and for each of its pieces one optimizer step with the mean gradient plus the penalty's gradient, followed by the correction; the gradient counter grows by the number of samples, the scheduler is stepped once; the result is a new tensor and the caller's x is overwritten in place with the same numbers, no other tensor changes. With SGD, \"all\" and a large enough max_batch_size it is gradient descent on the cost. It succeeds for \"all\" and \"batch\" whenever the optimizer is set up (once only) and sizes match; otherwise RuntimeError or ValueError with nothing changed. Refuted: max_batch_size does change training (ceil(N/m) steps and corrections per iteration); for a one-parameter model a constant correction is taken for a penalty and ignored. A wrong-size regularization raises ValueError, a non-tensor TypeError, before any tensor changes.", "quantifier": "all networks, optimizers preserving size, regularizations, iteration counts, batch arguments, histories", "why_tests_cant": "Ranges over all optimizers, regularizations, batches and iteration counts.", "anchors": ["decent_bench/costs/_empirical_risk/_pytorch_cost.py: PyTorchCost.local_training", "decent_bench/costs/_empirical_risk/_pytorch_cost.py: PyTorchCost.init_local_training", "decent_bench/costs/_empirical_risk/_pytorch_cost.py: PyTorchCost._get_batch_data"]}
{"id": "C100", "title": "Interoperable operators: entrywise on one framework, refused across frameworks", "statement": "+ - * / on two arrays of one installed framework, device and shape give a new array of that framework with the entrywise results; array op number and number op array likewise in the right order; no existing array changes. If the first operand is not a NumPy array and the second is an array of another framework, both the operator and the in-place operator raise TypeError whatever the libraries would do. Refuted: the documented TypeError for mixed frameworks when the first operand is a NumPy array - the call is simply handed to NumPy. maximum refuses arrays of two frameworks except numpy-first with JAX. In-place operators, indexing and all functions of one array refuse plain numbers with TypeError. Wrapping in Array makes no difference.", "quantifier": "all libraries satisfying the entrywise law (or any libraries), arrays of four frameworks, shapes, devices, wrapped or not", "why_tests_cant": "Ranges over all pairs of frameworks, shapes, devices and contents, including frameworks not installed on the test machine.", "anchors": ["decent_bench/utils/interoperability/_operators.py: add, sub, mul, div, iadd, maximum", "decent_bench/utils/interoperability/_helpers.py: _return_array, device_to_framework_device", "decent_bench/utils/interoperability/_imports_types.py", "decent_bench/utils/array.py: Array"]}
{"id": "C101", "title": "Interoperable arrays: aliasing, copies and in-place updates", "statement": "In any program of arithmetic, in-place operators, item assignment, views, copies, conversions and stacks, an array changes only if some statement's explicit target overlaps it. After x = iop.copy(a), no program that does not mention x changes x; the result of x = a op b is likewise independent. a op= b on a NumPy array or PyTorch tensor writes into the object: all names of it see the entrywise result (and a is rebound to the bare array, losing the Array wrapper). On JAX arrays, TensorFlow tensors and NumPy scalars it changes no array: only a is rebound.", "quantifier": "all programs over any number of variables, all initial aliasing patterns, all libraries", "why_tests_cant": "Ranges over all programs and all ways variables can share memory.", "anchors": ["decent_bench/utils/interoperability/_operators.py: iadd, isub, imul, idiv, ipow", "decent_bench/utils/interoperability/_functions.py: copy, get_item, set_item, stack", "decent_bench/utils/array.py: Array.__iadd__, __setitem__"]}
{"id": "C102", "title": "Conversions between frameworks", "statement": "to_array of an array to an installed framework keeps shape and entries, and framework_device_of_array then reports the requested framework and device (jax: as placed; NumPy always cpu). Ignored requests: dtype and device for NumPy sources to NumPy, device and dtype for TensorFlow to TensorFlow, dtype for JAX to JAX; np.float64 requested for PyTorch gives float32. Exactly stated sharing: numpy to numpy, CPU torch tensor to numpy, torch to torch on the same device share memory; numpy to torch, anything to JAX and tensors off the CPU to numpy copy; a dtype requested for an array of another framework is honoured. to_array_like answers in the framework and on the device of the model array; there and back restores framework, device, shape and entries. Numbers count as NumPy; foreign objects raise TypeError; frameworks not installed are refused.", "quantifier": "all arrays, frameworks, devices, dtype arguments, sets of installed frameworks", "why_tests_cant": "Ranges over all framework/device pairs, most of them not available on a test machine.", "anchors": ["decent_bench/utils/interoperability/_functions.py: to_numpy, to_torch, to_tensorflow, to_jax, to_array, to_array_like", "decent_bench/utils/interoperability/_helpers.py: framework_device_of_array"]}
{"id": "C103", "title": "Decorated cost methods: conversion of arguments and results", "statement": "A decorated cost method called with wrapped arrays of any installed frameworks runs the undecorated method once with every wrapped array converted to the cost's framework (same entries and shape) and everything else unchanged, and warns once per wrapped array of another framework; without x it raises ValueError and the method is not called. Refuted: results of the built-in costs are not converted back to the framework of x, since their superclass annotations are strings (postponed annotations): evaluated at a tensor, a NumPy cost answers with a NumPy array. With a superclass whose annotations are objects, the result has the framework and device of x. Bare (unwrapped) arrays are never converted.", "quantifier": "all costs (as arbitrary method bodies), frameworks, argument lists, libraries", "why_tests_cant": "Ranges over all method bodies, argument lists and framework combinations.", "anchors": ["decent_bench/utils/interoperability/_decorators.py: autodecorate_cost_method", "decent_bench/costs/_base/_cost.py: Cost.function, Cost.gradient", "decent_bench/costs/_base/_quadratic_cost.py: QuadraticCost"]}
{"id": "C104", "title": "Gradient-tracking methods converge linearly for small step sizes", "statement": "On a connected network with lossless channels and everyone active, symmetric stochastic weights positive on links and on the diagonal (in particular the default weights), and mu-strongly convex L-smooth costs, there is a positive threshold depending only on network, weights, L and m such that for every smaller step size Aug-DGM, ATC gradient tracking and K-GT (any number of local steps K>=1, any positive dual step) converge linearly from every start to the minimiser of the sum of the costs; so do GT-SARAH (K=0 or whole batches), GT-VR (always snapshotting or whole batches) and GT-SAGA with whole batches.", "quantifier": "all connected networks, weights, costs, solutions, starting points, step sizes below the threshold, iterations", "why_tests_cant": "An asymptotic statement over all networks, costs and starting points; tests only see finitely many iterations of finitely many problems.", "anchors": ["decent_bench/algorithms/p2p/_aug_dgm.py: AugDGM", "decent_bench/algorithms/p2p/_atc_tracking.py: ATC_Tracking", "decent_bench/algorithms/p2p/_kgt.py: KGT", "decent_bench/algorithms/p2p/_gt_sarah.py: GT_SARAH", "decent_bench/algorithms/p2p/_gt_vr.py: GT_VR", "decent_bench/algorithms/p2p/_gt_saga.py: GT_SAGA"]}
{"id": "C105", "title": "Wang-Elia and LED for small step sizes; where LED diverges", "statement": "In the setting of C104, Wang-Elia converges linearly to the optimum for all small step sizes; LED does for any tau>=1 local steps if tau*beta is below twice the smallest self-weight (with default weights: below 2/(1+D), D the largest number of neighbours). Without this condition it can fail for every step size: on the complete bipartite network of six agents with default weights, tau=beta=1 and costs half the squared norm, LED's states grow by at least 17/16 per iteration for every step size up to 1/4.", "quantifier": "all connected networks, weights, costs, starting points, step sizes below the threshold, numbers of local steps, iterations", "why_tests_cant": "An asymptotic statement over all networks, costs and starting points, and a divergence for all small step sizes.", "anchors": ["decent_bench/algorithms/p2p/_wang_elia.py: WangElia", "decent_bench/algorithms/p2p/_led.py: LED"]}
{"id": "C106", "title": "ProxSkip converges linearly in expectation over its communication coin", "statement": "On a connected lossless network with symmetric stochastic weights (in particular the defaults) and smooth strongly convex costs, for every step size below 2/L, chi>=1 and dual step beta at most the communication probability p, the squared distance of ProxSkip's states to the minimiser of the sum, averaged over independent flips with probability p, decays linearly in the number of iterations from every start; hence so does the probability of being at least eps away. With communication in every iteration every run converges linearly (beta<=1). Each run is the documented recursion driven by its flips, and an iteration whose flip says no sends nothing.", "quantifier": "all connected networks, weights, costs, starts, parameters in the stated range, iterations, all sequences of flips with their probabilities", "why_tests_cant": "An expectation over all coin sequences and a limit over iterations for all problems; a test sees a few seeded runs.", "anchors": ["decent_bench/algorithms/p2p/_prox_skip.py: ProxSkip.initialize, step, _compute_prediction, _communication_update, _no_communication_update"]}
{"id": "C107", "title": "A convergent run has converged to a stationary consensus, convex or not", "statement": "On a connected lossless network with symmetric stochastic weights (in particular the defaults), for any continuous gradients - convex or not - and any non-zero step size: whenever the agents' states converge along a run of SimpleGT, ED, NIDS, EXTRA, Wang-Elia, Aug-DGM or ATC-Tracking, the limits of all agents agree and the gradients at that point sum to zero. LED and K-GT: the same if states and dual/correction variables converge, costs are L-smooth and the local step is below 2/L. DGD: the limit is a rest point of its own recursion (in general not a consensus).", "quantifier": "all connected networks, weights, continuous gradients, non-zero step sizes, starts, and all convergent runs", "why_tests_cant": "A statement about limits of infinite runs for arbitrary non-convex problems; a test sees finitely many iterations of a few problems.", "anchors": ["decent_bench/algorithms/p2p/_simple_gt.py", "decent_bench/algorithms/p2p/_ed.py", "decent_bench/algorithms/p2p/_nids.py", "decent_bench/algorithms/p2p/_extra.py", "decent_bench/algorithms/p2p/_wang_elia.py", "decent_bench/algorithms/p2p/_aug_dgm.py", "decent_bench/algorithms/p2p/_atc_tracking.py", "decent_bench/algorithms/p2p/_led.py", "decent_bench/algorithms/p2p/_kgt.py", "decent_bench/algorithms/p2p/_dgd.py"]}
{"id": "C108", "title": "A whole benchmark killed and resumed", "statement": "A benchmark of several algorithms and trials with a base seed and a checkpoint directory may be killed at any point, any number of times, with any number of processes interleaving their file operations in any way. When it is finally allowed to finish (started again if the directory is still empty, resumed otherwise, possibly with added trials), every trial of every algorithm has exactly the outcome it has when run alone without interruption: it succeeds exactly when that run does, the returned network is that run's, and the directory holds it. After every such history exactly one of benchmark / resume_benchmark is possible, decided by the emptiness of the directory; starting a benchmark in a non-empty directory raises before touching it. The returned list of an algorithm is: completed trials, then the trials run now, each in trial order. No call touches trials outside its plan, and resuming without more iterations does not touch completed trials. is_benchmark_completed is true exactly if all trials of the benchmark as first started are complete, ignoring added trials. Not recoverable (proved): a kill inside initialize after metadata.json was opened and before the problem was written, and a kill while resume rewrites metadata.json in place: every later call raises although all trials are intact.", "quantifier": "all problems, algorithms, trials, seeds, checkpoint steps and retention, all interleavings of processes, all kill points outside half-written JSON files, all numbers of kills and resumptions", "why_tests_cant": "interleavings, kill points and histories are unbounded; a test covers one kill of one schedule", "anchors": ["decent_bench/benchmark/_benchmark.py:benchmark", "decent_bench/benchmark/_benchmark.py:resume_benchmark", "decent_bench/benchmark/_benchmark.py:_run_trials", "decent_bench/utils/checkpoint_manager.py:CheckpointManager"]}
{"id": "C109", "title": "Metric results in the checkpoint directory", "statement": "After compute_metrics with a checkpoint manager returns, are_metrics_computed is true and load_metrics_result gives back exactly the computed frames; for an incomplete benchmark the whole result. For a complete benchmark the network views are rebuilt, and the loaded result is the computed one exactly if every algorithm occurs in the first table metric's frame. The first computation may be killed anywhere: are_metrics_computed being true implies complete stored frames. A kill anywhere except inside the rewriting of metadata.json leaves the benchmark untouched and resumable with the same plan. Not guaranteed (proved): a result with plot metrics only is displayed when computed but never when loaded; views of trials added on resume are lost by saving and loading; a killed recomputation leaves are_metrics_computed true with an unreadable file; a kill inside the metadata rewriting makes resuming and computing impossible; resuming does not invalidate computed metrics, so loading mixes old frames with views of the new states.", "quantifier": "all directories, benchmark results, metric computations and their values, all kill points, all later benchmark calls", "why_tests_cant": "kill points, directory states and metric selections are unbounded", "anchors": ["decent_bench/benchmark/_compute/_compute_metrics.py:compute_metrics", "decent_bench/utils/checkpoint_manager.py:save_metrics_result", "decent_bench/utils/checkpoint_manager.py:load_metrics_result", "decent_bench/utils/checkpoint_manager.py:load_benchmark_result", "decent_bench/benchmark/_metric_result.py:algorithms"]}
{"id": "C110", "title": "Ready-made problems", "statement": "create_quadratic_problem with at least one agent always returns, and without agents raises TypeError: one cost per agent, each 1-strongly convex and 2*size-smooth (the reported constants say so), and x_optimal is the unique minimiser of their sum. create_regression_problem (LinearRegressionCost, two or more agents, batch size between 1 and 10 or 'all') always returns: every agent has ten of the 10 n generated samples, each sample belongs to one agent, the sum of the costs is n times the cost on all the data, x_optimal minimises it whatever the batch size, 100 test samples. create_classification_problem (LogisticRegressionCost): if every agent's samples contain both classes the same holds with x_optimal an iterate of the accelerated method within its rate; otherwise ValueError. Inadmissible agents or batch sizes give ValueError. With a global seed the objective depends on the seed and the number of agents only. Not guaranteed (proved): balanced data do not make the classification call succeed (a shuffle may give an agent one class only, and with fewer samples of a class than agents every shuffle does); with a global seed and ten agents the test data are the training data.", "quantifier": "all sizes, numbers of agents, batch sizes, seeds, generator states and draws, generated data sets", "why_tests_cant": "draws, data sets and sizes are unbounded; optimality over the whole space is not testable", "anchors": ["decent_bench/benchmark/_utils.py:create_quadratic_problem", "decent_bench/benchmark/_utils.py:create_regression_problem", "decent_bench/benchmark/_utils.py:create_classification_problem", "decent_bench/datasets/_synthetic_regression_handler.py", "decent_bench/datasets/_synthetic_classification_handler.py"]}
{"id": "C111", "title": "ADMM with random inactivity and message loss converges linearly in mean square", "statement": "Under any activation and message-drop scheme, a run of ADMM succeeds and its iterates are determined by network.active_agents() and i.messages() of each iteration: active agents solve their local proximal problem, exactly the rows of z with a fresh message are updated, everything else is kept; an agent hears a neighbour only if both are active. If the iterations turn out independently with the same distribution and every neighbour's message arrives with positive probability, then for strongly convex smooth costs, any penalty > 0, any relaxation in (0,1) and any start, the mean over all outcomes of the summed squared distance to the minimiser of the sum decreases geometrically. In particular this holds for lossless channels and agents that are active at random, if neighbours are active together with positive probability.", "quantifier": "all connected networks without isolated agents, strongly convex smooth costs, penalties, relaxations in (0,1), starts, finite outcome distributions, outcome sequences and numbers of iterations", "why_tests_cant": "the claim is about the expectation over all activity and loss patterns of unbounded length, with a rate that must hold from every start; tests sample a few patterns", "anchors": ["decent_bench/algorithms/p2p/_admm.py: ADMM.initialize, ADMM.step", "decent_bench/networks.py: Network.active_agents, Network.send, P2PNetwork.active_neighbors", "decent_bench/agents.py: Agent.messages"]}
{"id": "C112", "title": "Client sampling in FedAvg and FedProx is unbiased, with the finite-population variance and a mean-square limit", "statement": "On an ideal network an iteration of FedProx (FedAvg with mu = 0) replaces the server model by the mean of the local results of exactly the selected clients. UniformSelection, given the contract of random.sample that all samples are equally likely, chooses k clients so that all clients and all pairs of clients are equally likely. For such a choice the expected new server model is the one that all clients together would have produced, and its variance is (N-k)/(k(N-1)) times the mean squared spread of the clients' results. For strongly convex smooth costs and step_size*(L+mu) <= 1 the expected squared distance of the server model to the model FedProx reaches with all clients decreases geometrically down to a floor proportional to that factor times the spread of the clients' results at this model; the floor is zero if all clients are selected or the client costs share that minimiser.", "quantifier": "all client sets, strongly convex smooth costs, step sizes with step_size*(L+mu) <= 1, numbers of local steps, starts, numbers of iterations, validated selection sizes and equally likely samples", "why_tests_cant": "expectation over all selection histories of unbounded length; a test sees a few random draws and cannot distinguish a biased aggregate from noise", "anchors": ["decent_bench/algorithms/federated/_fed_prox.py: FedProx.step", "decent_bench/algorithms/federated/_fed_avg.py: FedAvg.step", "decent_bench/algorithms/federated/_fed_algorithm.py: FedAlgorithm.select_clients, aggregate", "decent_bench/schemes.py: UniformSelection.select"]}
{"id": "C113", "title": "Which hyper-parameters the algorithm constructors accept", "statement": "For arguments of the annotated types (int iterations and num_local_steps, finite floats otherwise) every algorithm's constructor succeeds exactly if all documented ranges hold and raises ValueError otherwise. For arbitrary Python values the accepted ones are characterised exactly: a number accepted for a parameter lies in its documented range, except that DiNNO, GT-SAGA, GT-SARAH, GT-VR, KGT, LED, LT-ADMM(-VR) and ProxSkip accept any int step size, even negative (refuted); NaN and infinity pass every one-sided check and no two-sided one; a float number of iterations is accepted, and run() then initialises the network and raises TypeError. FedNova and FedPD accept exactly positive ints or dictionaries of positive ints as num_local_steps and resolve them to a positive int for exactly the network's clients, failing (ValueError) only if a client is missing; resolving the stored result changes nothing. Fed-LT accepts exactly the known solvers with known, in-range arguments and stores exactly the solver's arguments.", "quantifier": "all algorithms and all argument values (ints, floats, NaN, infinities, non-numbers), step dictionaries, client lists and solver-argument dictionaries", "why_tests_cant": "the argument space is infinite and includes special values and type/value combinations that tests do not enumerate", "anchors": ["decent_bench/algorithms/_algorithm.py: Algorithm.__init_subclass__, run", "decent_bench/algorithms/p2p/*.py: __post_init__", "decent_bench/algorithms/federated/*.py: __post_init__", "decent_bench/algorithms/federated/_fed_algorithm.py: _validate_num_local_steps, _settle_num_local_steps", "decent_bench/algorithms/federated/_fed_lt.py: _validate_solver_args"]}
{"id": "C114", "title": "Using an algorithm object for several runs", "statement": "Running the same algorithm object again on the same network starts it from the same initial states, for every kind of x0 (None, array, dictionary, with or without a server entry), peer-to-peer or federated. Algorithms that store the resolved states in x0 (all but DGD, KGT, LED, LT-ADMM and ProxSkip) lose x0=None after the first run: on a network with an agent that was not in the first network they raise ValueError although a fresh object would start it at zero (refuted); the other five never depend on earlier runs.", "quantifier": "all algorithms, networks, x0 arguments and sequences of runs", "why_tests_cant": "depends on the history of uses of one object over arbitrary pairs of networks", "anchors": ["decent_bench/algorithms/utils.py: initial_states", "decent_bench/algorithms/p2p/*.py: initialize", "decent_bench/algorithms/federated/*.py: initialize"]}
{"id": "C115", "title": "What the displayed tables show", "statement": "For every metric result produced by compute_metrics (distinct descriptions, one aggregated row per metric, algorithm and statistic), display_metrics/display_tables succeeds and prints one table whose cell for (metric, statistic, algorithm) reads 'mean \u00b1 std' of the statistic across agents over the trials, in the metric's own format (or .2e if that format is invalid), multiplied by scale_compute for the four call counters and for no other metric; every aggregated row has its cell, unmeasured pairs are blank, no row or column is invented or repeated. The scale_compute hint is printed exactly if a call counter is among the metrics, the divergence hint exactly if a mean or std is infinite (NaN alone does not bring it up, although the hint speaks of NaN), and with a table path both renderings of the same table are stored whichever is printed. The result object is never modified, even by a failing call, so displaying again with the same options prints the same. A result without table data prints nothing.", "quantifier": "all raw frames, statistics, metrics, formats, scale factors, algorithms, finite/infinite/NaN values, and all earlier display calls", "why_tests_cant": "tests check a few frames; the claim is about every combination of metrics, algorithms, missing pairs, formats and non-finite values, and about histories of displays sharing one result", "anchors": ["decent_bench/benchmark/_display/display_tables.py: display_tables, _scale_and_format, _get_format", "decent_bench/benchmark/_compute/compute_tables.py: aggregate_table_metrics"]}
{"id": "C116", "title": "Which log messages are printed", "statement": "For every session of API calls in a new process, with any messages, any interleaving of worker processes and listener threads and whichever parallel benchmarks raise, every message is printed (or waits in a running listener) exactly as often as a three-state rule says, in particular never twice, and in the logged order if no parallel benchmark raised. A benchmark with several processes prints exactly the messages from its own log_level on, from the main process and every worker. Without parallel benchmarks the log_level of the first configuring call (creating a problem uses INFO) decides for all later calls: a later, lower log_level has no effect, contrary to its documentation. After a parallel benchmark has returned, no other call prints anything, whatever its log_level: the table of display_metrics does not appear. After one that raised, later messages are printed from the failed call's level on.", "quantifier": "all sequences of API calls, log levels, messages, interleavings of processes and listener threads, and failures of parallel calls", "why_tests_cant": "a test sees one call in one process with one schedule; the claim is about all call histories and interleavings, and the loss of messages only appears across calls", "anchors": ["decent_bench/utils/logger.py: start_logger, start_log_listener, start_queue_logger", "decent_bench/benchmark/_benchmark.py: _init_logging_and_multiprocessing, benchmark, resume_benchmark, _run_trials", "decent_bench/benchmark/_utils.py: create_regression_problem, create_classification_problem, create_quadratic_problem"]}
{"id": "C117", "title": "Kaggle and PyTorch datasets, and what counts as the same label", "statement": "KaggleDatasetHandler raises ImportError, RuntimeError or ValueError (unknown label column) in the documented cases and otherwise succeeds, a misspelt feature or target column included: that one surfaces as KeyError when data is read. With existing, distinct columns get_datapoints gives one datapoint per row in row order holding the converted entries of the configured columns in the configured order; labels are the entries of the label column, or of the only target column, in which case label and target of a sample agree. PyTorchDatasetHandler reports as labels the targets of its items exactly for datasets whose attribute targets (or labels) agrees with the items; with a target transform it reports the labels before the transform, and with an attribute of the wrong length every label-based partitioner raises ValueError. split of both handlers returns exactly the datapoints with the given indices in the given order, for all partitions into different samples, and every partition granted by split_iid, split_stratified_iid, split_dirichlet_label or split_shard is accepted by split. Two samples count as one class exactly if their labels are equal and complete: samples with a missing label are all different classes.", "quantifier": "all data frames, column choices, conversions, label objects, PyTorch datasets, partitions, requests and random draws", "why_tests_cant": "tests use one small frame and one dataset; the claims are about every frame, column selection, attribute combination, label object (NaN included) and random partition", "anchors": ["decent_bench/datasets/_kaggle_handler.py: KaggleDatasetHandler", "decent_bench/datasets/_pytorch_handler.py: PyTorchDatasetHandler", "decent_bench/datasets/partitioners/_utils.py: _normalized_labels, _normalize_label", "decent_bench/datasets/_dataset_handler.py: _resolve_partitions"]}
{"id": "C118", "title": "DLM and DiNNO solve the problem with JAX and TensorFlow, and not with NumPy and PyTorch on a triangle", "statement": "On arrays whose += makes a new array (JAX, TensorFlow), without losses, compression and noise and with all agents active, DLM and DiNNO (any number of local steps) compute their documented recursions on every network, DLM one iteration late because its first iteration only communicates. For strongly convex smooth local costs, a connected network and a step size below 1/(L + 2 penalty D), D the largest number of neighbours, DLM and DiNNO with one local step converge linearly from every starting point to the minimiser of the sum of the costs; DiNNO with any number of local steps rests only there. With NumPy arrays or torch tensors and no noise, where += changes the array that was sent, a DLM run on a triangle that converges at all has converged to zero at every agent, whatever the costs, so it never reaches a minimiser that is not zero.", "quantifier": "all networks, costs, gradients, starting points, step sizes, penalties, numbers of local steps and iterations", "why_tests_cant": "tests run a few iterations on one network and framework; the claims are limits of infinite runs for all connected networks, costs and start points", "anchors": ["decent_bench/algorithms/p2p/_dlm.py: DLM", "decent_bench/algorithms/p2p/_dinno.py: DiNNO", "decent_bench/utils/interoperability/_operators.py: iadd, idiv"]}
{"id": "C119", "title": "SimpleLinearModel: shapes, silent activation names, gradients, and networks that never train from the default start", "statement": "SimpleLinearModel(input, hidden, output) maps rows of input entries to rows of output entries, refuses other rows, and has sum (n_l + 1) n_{l+1} parameters. An activation name other than relu, tanh and sigmoid is silently no activation, and then hidden layers add nothing. The gradient of a per-sample loss is the vector of its partial derivatives wherever no rectifier sits at its kink. From the default start (zeros) no number of iterations of DGD, simple GT, ED, NIDS, EXTRA, Wang-Elia, Aug-DGM, ATC tracking or FedAvg makes a network with hidden layers and relu, tanh or no activation depend on its input, whatever the data and losses; from any start with equal hidden units (a constant x0), with any activation, the eight peer-to-peer methods keep them equal and a network with one hidden layer never computes more than a network with one hidden unit. ArgmaxActivation and ArgminActivation return the first position of the largest and smallest entry. Cross entropy of two scores is the logistic loss of their difference, so the ready-made two-class problem does not change when a vector is added to both classes' parameters.", "quantifier": "all layer sizes, activation names, parameters, inputs, losses, data sets, networks, mixing matrices, step sizes and numbers of iterations", "why_tests_cant": "tests build one network and run a few steps; the claims hold for all sizes, data and infinitely many iterations, and a run that never trains looks like a badly tuned one", "anchors": ["decent_bench/utils/pytorch_utils.py: SimpleLinearModel, ArgmaxActivation, ArgminActivation", "decent_bench/costs/_empirical_risk/_pytorch_cost.py: gradient", "decent_bench/algorithms/utils.py: initial_states"]}
{"id": "C120", "title": "Checkpoint files by name: numbers of any length, files of older versions, and foreign files", "statement": "The name of a checkpoint file determines its iteration and can be read back for every number of digits; the files of a trial have different names and different trials have different directories. Whatever the order in which the file system lists a directory, any history of killed and resumed sessions does to the named files what the numbered model of C36-C38 does (so their guarantees hold for the files on disk), keeps the newest files by number rather than by name, and does not touch other files. load_checkpoint reads the .pkl file of an older version if there is no .pkl.zst file. Resuming a trial whose last checkpoint an older version left as .pkl, with keep_n_checkpoints = 1, deletes the file just written and keeps the old one: complete.json names a missing file and the result can never be loaded; with keep_n_checkpoints of two or more it completes. A foreign file such as checkpoint_best.pkl in a trial directory makes every save raise ValueError after it has written and recorded the checkpoint, so a new trial never completes in one session. Compressed and plain files are told apart by their content, not their name.", "quantifier": "all iteration numbers, directory contents, listing orders, trials, retention settings and histories of kills", "why_tests_cant": "tests use a few short runs with small numbers in a clean directory; names, listing orders, leftover files and kill histories are unbounded", "anchors": ["decent_bench/utils/checkpoint_manager.py: save_checkpoint, load_checkpoint, mark_trial_complete, load_trial_result, is_benchmark_started, _resolve_checkpoint_path, _checkpoint_iteration, _load_pickle, _cleanup_old_checkpoints, _get_trial_dir"]}
{"id": "C121", "title": "Ready-made starting points", "statement": "normal_initialization and uniform_initialization give every node of the network, the server included, its own fresh draw of the shape of its cost, in the order of the network; passed as x0 to an algorithm these dictionaries are exactly the states it starts from. uniform_initialization raises ValueError, without drawing, exactly if high is not above low. pytorch_initialization gives every node the parameters its model holds at the moment of the call and raises TypeError exactly if some node, the server included, has another kind of cost: with the default server of a FedNetwork, whose cost is a ZeroCost, it always raises, whatever the clients' models, while all_same=True works and starts everybody from the first client's model. Agents sharing one model object start from the same point. Evaluating a cost moves its model: after function, gradient or predict at x (even if the batch could not be drawn) pytorch_initialization gives x and not the initialization, while a point of the wrong size raises ValueError and leaves the model alone. FedAvg uses only the server's starting point.", "quantifier": "all networks, costs, generators, bounds, models, points and numbers of rounds", "why_tests_cant": "tests draw a few arrays on small networks; the claim is about every generator state, every model state and every later use as x0", "anchors": ["decent_bench/algorithms/utils.py: normal_initialization, uniform_initialization, pytorch_initialization, initial_states", "decent_bench/networks.py: FedNetwork", "decent_bench/costs/_empirical_risk/_pytorch_cost.py: _get_model_parameters, _set_model_parameters, function, gradient, predict"]}
{"id": "C122", "title": "Fed-LT converges linearly to the minimiser, also with sampled clients", "statement": "Let the clients' costs be m-strongly convex and L-smooth, the server's cost convex (ZeroCost by default), the network ideal, the local solver gd with step_size*(L+1/penalty) <= 1 and enough local steps; for every admissible m, L, step size and penalty there is such a number of steps and every larger one will do. Then Fed-LT converges linearly to the minimiser of server cost plus client costs (for the default server: of the sum of the client costs) from every x0 and z0: the server's model and every client's model when all clients take part; in mean square when the participating clients are drawn anew each round so that every client has a positive chance (any correlation, possibly nobody), in particular with UniformSelection for every requested number or fraction. A step size at which the local solver still converges does not suffice: with two equal clients, factor 1/2 per local step and one local step, the server sits at the minimiser while the clients' models double in every round.", "quantifier": "all numbers of clients, dimensions, costs, starting points, distributions over sets of clients, tapes of draws and numbers of rounds", "why_tests_cant": "a test runs one problem with one seed for finitely many rounds; a rate in mean square for every distribution of participants is a statement about all runs", "anchors": ["decent_bench/algorithms/federated/_fed_lt.py: step, _compute_server_y, _run_local_updates, _compute_local_update, aggregate", "decent_bench/schemes.py: UniformSelection"]}
{"id": "C123", "title": "How often agents are active and messages are dropped", "statement": "With independent uniform draws: under UniformActivationRate and UniformDropRate the share of active iterations (dropped messages) tends almost surely to the given probability. Under MarkovChainActivation the agent is active at its t-th query with probability p + (1-p)(1-a-b)^(t+1), p = a/(a+b), where a, b are the probabilities of becoming active and inactive; the expected share of active iterations tends to p unless a = b = 0, the probability itself unless moreover a = b = 1; given that it is active it is active next time with probability 1-b. Under PoissonActivation the share of active iterations tends to 1/(1+mean_interval): along every run in which the average waiting time tends to the mean, hence almost surely for independent waiting times. Under GilbertElliott the t-th message is dropped with probability drop_rate (p + (b0-p)(1-b-g)^(t+1)), p = g/(b+g); with equal transition probabilities (the default) and the uniformly drawn start every message is dropped with probability drop_rate/2, not drop_rate; after a drop the next message is dropped with probability drop_rate (1-b): losses come in bursts.", "quantifier": "all admissible probabilities, numbers of queries, probability spaces with independent uniform draws, and runs", "why_tests_cant": "probabilities and limits: a test samples finitely many answers for a few seeds", "anchors": ["decent_bench/schemes.py: UniformActivationRate, MarkovChainActivation, PoissonActivation, UniformDropRate, GilbertElliott"]}
{"id": "C124", "title": "FedAvg and FedProx on unreliable networks", "statement": "For every selection scheme, activation, drop, compression and bounded-noise behaviour, exception-free: an iteration in which no upload arrives leaves the server's model unchanged; one in which some arrive shrinks its distance to a point xs by the factor (1+rho)^2 r up to a floor, r = (mu + m(1-eta(mu+m))^K)/(mu+m) (FedAvg: (1-eta m)^K), where the costs of the clients ever heard are m-strongly convex and L-smooth, eta(L+mu) <= 1, and messages are distorted by at most rho of their norm plus eps. After N iterations, M of them with an upload: |x_N - xs| <= rate^M |x_0 - xs| + floor; the floor is (e+h)/m + (1+r)/(1-r) eps for rho = 0, e the error of the (mini-batch) gradients, h the largest client gradient at xs. So if the clients share a minimiser, losses, inactivity and selection only slow the run down; if one client's uploads alone get through, the run ends at that client's minimiser. Quantization has eps = sqrt(d) step/2, StochasticQuantization rho = sqrt(d)/levels for every outcome, TopK rho = sqrt(1-k/d).", "quantifier": "all numbers of clients, dimensions, costs, gradient errors, step sizes, local steps, selections, loss, activity and compression patterns and numbers of iterations", "why_tests_cant": "all loss patterns and histories; tests run a few rounds on ideal networks", "anchors": ["decent_bench/algorithms/federated/_fed_avg.py: FedAvg", "decent_bench/algorithms/federated/_fed_prox.py: FedProx", "decent_bench/algorithms/federated/_fed_algorithm.py: FedAlgorithm.aggregate", "decent_bench/networks.py: Network.send", "decent_bench/schemes.py: Quantization, StochasticQuantization, TopK"]}
{"id": "C125", "title": "DGD and ATC on unreliable peer-to-peer networks", "statement": "For every activation, drop, compression and bounded-noise behaviour the steps of DGD and ATC raise no exception and, with m-strongly convex L-smooth costs, oracles erring by at most e, gradients at a point xs of norm at most h, and messages distorted by at most kappa of their norm plus eps: (1) DGD with eta(L+m) <= 2 W_ii and kappa < eta m never lets any agent leave the ball around xs of radius max(start, |xs|, (kappa|xs| + eps + eta(e+h))/(eta m - kappa)); (2) if all agents are active and the weight of the messages each agent misses is at most lam per iteration, the largest distance is at most (1 - eta m + kappa)^N start + (kappa|xs| + eps + eta(e+h) + lam|xs|)/(eta m - kappa), lam = 0 when nothing is dropped; (3) the same for ATC with eta(L+m) <= 2, rate 1 - delta(1-(1+kappa)(1-eta m)) where every agent gives at least delta of its weight to neighbours; (4) default weights satisfy W_ii >= 1/(1+degree); (5) with all messages lost DGD does not minimise the local costs: agent i converges geometrically to the point z with (1-W_ii) z + eta grad f_i(z) = 0, i.e. it is pulled to the origin, because the weights of lost messages are not redistributed.", "quantifier": "all networks, dimensions, costs, gradient errors, step sizes, starts, loss, activity and compression patterns and numbers of iterations", "why_tests_cant": "all loss and activity histories and all costs; tests run few iterations and never compare with a bound", "anchors": ["decent_bench/algorithms/p2p/_dgd.py: DGD.step", "decent_bench/algorithms/p2p/_atc.py: ATC.step", "decent_bench/networks.py: Network.send", "decent_bench/networks.py: P2PNetwork.weights"]}
{"id": "C126", "title": "What a metric result reports about itself", "statement": "compute_metrics on benchmark results (1) raises nothing if the requested and available metrics raise nothing and descriptions are distinct, and raises ValueError for two table metrics or two plot metrics with one description, even if one of them is unavailable; (2) algorithms lists the names of the benchmarked algorithms alphabetically, once each; (3) table_metrics and plot_metrics list the descriptions of exactly the requested (default) and available metrics, alphabetically, provided some trial recorded an iteration; otherwise metrics, iterations and the table are empty; (4) iterations lists, increasing, exactly the recorded iterations at which the first available plot metric has a value, so the documented 'all iterations reached in at least one trial' is false when that metric lacks values or when no plot metrics are requested; (5) after any sequence of update_table_results calls the object equals the one compute_metrics would have returned with the statistics of the last call; (6) without network views algorithms lists exactly those for which the first table metric has a value at the last iteration.", "quantifier": "all algorithms, trials, recorded iterations, metrics, availability of metrics, statistics and sequences of updates", "why_tests_cant": "all metrics and histories; tests use metrics with values everywhere, where the first plot metric happens to contain every iteration", "anchors": ["decent_bench/benchmark/_metric_result.py: MetricResult", "decent_bench/benchmark/_compute/_compute_metrics.py: compute_metrics", "decent_bench/benchmark/_compute/compute_plots.py: compute_plot_metrics", "decent_bench/benchmark/_compute/compute_tables.py: compute_table_metrics"]}
{"id": "C127", "title": "Random, even losses slow FedAvg down but do not bias it", "statement": "For every activity, selection and loss behaviour over channels that do not change messages, a FedAvg or FedProx iteration replaces the server model by the mean of the local results of exactly the clients whose uploads arrived, or keeps it. If the set of clients heard is random, independent over iterations, and among sets of one size all clients and all pairs are equally likely, then: (1) the mean of the new server model is (1-P) old + P (model all clients together would give), P the probability of hearing anyone; (2) the mean squared distance to the model xs reached without losses is at most (1-P(1-r))^N start + B F V with r < 1 and B independent of the loss behaviour, F the mean finite-population factor (N-k)/(k(N-1)) over the nonempty sets, V the disagreement of the clients at xs; (3) with one local step xs minimises the sum of the costs; (4) independent losses with equal probability are of this kind with P = 1-(1-p)^N, and over reliable channels clients awake independently with probability p realise them.", "quantifier": "all numbers of clients, dimensions, smooth strongly convex costs, step sizes, local steps, starts, even loss distributions and numbers of iterations", "why_tests_cant": "a statement about expectations over all loss patterns and all histories", "anchors": ["decent_bench/algorithms/federated/_fed_avg.py: FedAvg", "decent_bench/algorithms/federated/_fed_prox.py: FedProx", "decent_bench/algorithms/federated/_fed_algorithm.py: FedAlgorithm.aggregate", "decent_bench/schemes.py: UniformActivationRate", "decent_bench/networks.py: FedNetwork"]}
{"id": "C128", "title": "A network has the topology of the graph it was built from", "statement": "For every simple undirected graph and every list of agents for which P2PNetwork can be constructed: agents() is the given list, the i-th agent has the place of the i-th node, two agents are neighbours exactly if the nodes they replaced are, degrees agree, edges lists every edge once, and the network is connected and symmetric, so the default weights are symmetric, stochastic and positive exactly on the edges if the graph has no self-loops. Whether construction succeeds depends on the connectedness of the given graph. adjacency is symmetric and 0/1 if the graph carries no edge attribute 'weight' - and not otherwise, where the attribute stands in the matrix and a weight of 0 hides an edge (refuted claim). A FedNetwork is the star of the server and the clients in the given order. Assigning weights succeeds exactly for a square matrix of the right size, framework and device; after any sequence of reads and assignments, caught errors included, weights returns the last accepted matrix, otherwise the Metropolis matrix of the moment it was first read.", "quantifier": "all simple graphs with any edge weights, all lists of agents, all client lists, all sequences of reads of and assignments to weights", "why_tests_cant": "node replacement, edge enumeration and the weights cache must be right for every graph and every history of uses", "anchors": ["decent_bench/networks.py: P2PNetwork.__init__", "decent_bench/networks.py: FedNetwork.__init__", "decent_bench/networks.py: P2PNetwork.weights", "decent_bench/networks.py: P2PNetwork.adjacency", "decent_bench/networks.py: Network.edges"]}
{"id": "C129", "title": "FedNova converges to the minimiser of the mean loss over samples, up to O(step size)", "statement": "Plain FedNova (no momentum, proximal term or server momentum): over channels that do not change messages, whatever is lost and whoever is selected or inactive, every iteration applies the documented round of exactly the clients both of whose uploads arrived, or keeps the model if there are none. Over an ideal network with m-strongly convex L-smooth client costs, at most D+1 local steps per client, (D+1) eta L <= 1 and eta L^2 D <= m, after k iterations the model is within (1 - eta m/2)^k |x0 - xs| + eta L D b / m of the unique minimiser xs of the client costs weighted by their numbers of samples, b bounding the client gradients at xs; the limit is exact with one local step each or if all clients share the minimiser, and the bias goes to zero with the step size. With a shared minimiser the model never moves away from it, under any losses and selection, and contracts in every round in which a client was heard. FedNova and FedAvg minimise different objectives if the numbers of samples differ.", "quantifier": "all clients, sample counts, local step counts, costs, dimensions, initial states, iteration counts, losses, activity and selections", "why_tests_cant": "a convergence bound over all costs, local step counts and executions", "anchors": ["decent_bench/algorithms/federated/_fed_nova.py: FedNova.step", "decent_bench/algorithms/federated/_fed_nova.py: FedNova._compute_local_update", "decent_bench/algorithms/federated/_fed_nova.py: FedNova.aggregate"]}
{"id": "C130", "title": "What a metrics view shows, and for how long", "statement": "NetworkMetricsView.from_network shows every agent of the network once, in order, with the counters and the history it has at that moment and the same neighbours; of a federated network it shows the server as server() and the clients, in order, as clients() and agents(), the server connected to exactly the clients and each client to the server only; clients(), server() of a peer-to-peer view, neighbors() of a federated view, views that are not objects of this network view and other kinds of networks are refused with ValueError. iterations lists in increasing order, once each, the iterations at which some agent or the server has a snapshot. The counters never change; the history is the agent's own, later snapshots included, until the agent is next initialised, and from then on stays what it was just before: the claim of an immutable view is refuted, but views made after a finished run never change, even when the same agents are run again. The mean state looked up through its cache is then always the true one, whatever is forgotten in between; if the agents go on instead, it is stale (refuted claim).", "quantifier": "all networks, agent states, sequences of operations on the agents after the view was made, and sequences of cached look-ups, evictions and operations", "why_tests_cant": "sharing of histories and staleness of caches depend on every later history of the agents", "anchors": ["decent_bench/metrics/_metrics_view.py: AgentMetricsView.from_agent", "decent_bench/metrics/_metrics_view.py: NetworkMetricsView", "decent_bench/metrics/utils.py: x_mean", "decent_bench/metrics/utils.py: all_sorted_iterations", "decent_bench/agents.py: Agent.initialize"]}
{"id": "C131", "title": "An adaptive server moves at most a constant per round, whatever is uploaded", "statement": "With FedAdagrad the server's model moves, in every round and every coordinate, by at most server_step_size * sqrt((1-beta_1)/(1+beta_1)), hence by at most server_step_size, and is at most k times that from its start after k rounds (for beta_1 = 0 the bound cannot be improved); with FedAdam and beta_1^2 < beta_2 by at most server_step_size * (1-beta_1) * sqrt(beta_2/((1-beta_2)(beta_2-beta_1^2))); with FedYogi by at most server_step_size * (1-beta_1) * sqrt((beta_2-c)/(c(beta_2-c-beta_1^2))) for every c with 0 < c <= 1-beta_2 and beta_1^2 < beta_2-c. With the default coefficients beta_1 = 0.9, beta_2 = 0.99 FedYogi's bound is below 2.41 server step sizes. The claim that every accepted pair of coefficients has such a bound is refuted: with FedAdam, beta_2 = 0 and any beta_1 in (0,1), convex client costs with continuous gradients make the server move further than any given bound in the second round.", "quantifier": "all gradient oracles, step sizes, numbers of local steps, client selections, activations, losses, compressions and noise of the clients' messages, initial states, runs, rounds and coordinates", "why_tests_cant": "the bound must hold for every sequence of uploads of any length and size", "anchors": ["decent_bench/algorithms/federated/_fed_opt.py: FedOpt.aggregate", "decent_bench/algorithms/federated/_fed_adagrad.py: FedAdagrad", "decent_bench/algorithms/federated/_fed_adam.py: FedAdam", "decent_bench/algorithms/federated/_fed_yogi.py: FedYogi"]}
{"id": "C132", "title": "Users' metadata and the counters of resume share one dictionary", "statement": "append_metadata changes exactly the entries it names, in the dictionary it returns and (as JSON represents the values) in the file. However entries are added before and between any number of resumes, with names other than increased_trials and increased_iterations and values JSON can represent, the resumes run exactly what they would run without them (original trials plus all added ones; iterations likewise when the resume adds some), with the stored base seed, and the user finds every entry as last written. Refuted: that the counters are protected (a user's entry increased_trials makes a plain resume run other trials), and that a refused append leaves the directory as it was: a value JSON cannot represent raises TypeError with metadata.json destroyed, after which every append and every resume raises, for ever; given to the constructor as benchmark_metadata it makes the first start leave a directory that is not empty and cannot be resumed. A counter overwritten by something that is not a number makes resumes raise TypeError, possibly after trials that never ran have been counted.", "quantifier": "all JSON encodings (abstract: idempotent, faithful on integers), metadata contents, entries, and all sequences of append_metadata and resume_benchmark calls", "why_tests_cant": "the claims range over all histories of calls and all entries", "anchors": ["decent_bench/utils/checkpoint_manager.py: CheckpointManager.append_metadata", "decent_bench/utils/checkpoint_manager.py: CheckpointManager._save_metadata", "decent_bench/utils/checkpoint_manager.py: CheckpointManager.initialize", "decent_bench/benchmark/_benchmark.py: resume_benchmark"]}
{"id": "C133", "title": "With backups no kill loses the benchmark", "statement": "resume_benchmark with create_backup=True, when it is not killed and no archive of the same name exists, changes the metadata and returns exactly as without a backup, and leaves an archive of the directory as it was before. With an archive of the same second, or an unreadable directory, it raises and changes nothing. An archive once begun is never changed or overwritten by later resumes. However many resumes are made and after however many file operations each of them is killed, the directory or a complete archive has readable metadata, and resuming from it runs the original trials plus at least all those added by the resumes that got to running trials and at most all that were asked for, with the stored base seed. (Without backups this is refuted in C108.) Refuted for append_metadata called otherwise, as by compute_metrics after saving its results: it makes no backup, and a kill between opening and writing metadata.json, with no archive around, leaves nothing that can be resumed.", "quantifier": "all sequences of resumes with any increases, time stamps (distinct or not) and kill points between file operations, and all metadata", "why_tests_cant": "histories and kill points are unbounded", "anchors": ["decent_bench/utils/checkpoint_manager.py: CheckpointManager.create_backup", "decent_bench/utils/checkpoint_manager.py: CheckpointManager.append_metadata", "decent_bench/benchmark/_benchmark.py: resume_benchmark"]}
{"id": "C134", "title": "Uneven losses bias FedAvg, even shares are enough for no bias", "statement": "Let the set of clients whose uploads arrive in a FedAvg or FedProx iteration be random with any law, over channels that lose but do not change messages. The expected new server model is the sum of the clients' local results weighted by their expected shares in the server's mean, plus the old model weighted by the probability that nothing arrives; the shares sum to the probability that something arrives. If all shares are equal the iteration is unbiased (no condition on pairs of clients or set sizes). If two clients' shares differ there are 1-smooth 1-strongly convex costs such that from the minimiser of their sum the expected model of the next FedAvg iteration is elsewhere, for every number of local steps and step size up to 1. So one-step FedAvg keeps, in expectation, the minimiser of every such problem exactly if the shares are equal (for every set of client sets there is a network behaviour that brings it about). On the costs half the squared distance to a centre, the expected model of a whole FedAvg run under independent losses tends geometrically to the centres weighted by the shares, not to their mean.", "quantifier": "all networks, client sets, laws of loss, gradients, step sizes, numbers of local steps, proximal weights and states", "why_tests_cant": "an expectation over arbitrary laws of loss and all costs", "anchors": ["decent_bench/algorithms/federated/_fed_avg.py: FedAvg", "decent_bench/algorithms/federated/_fed_prox.py: FedProx", "decent_bench/networks.py: FedNetwork"]}
