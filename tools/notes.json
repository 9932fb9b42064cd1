{
 "C04": {
  "note": "Counters over all programs of evaluations, nested no_count blocks and exceptions; own-cost hypothesis needed, and the shared-cost-object miscount is proved as a separate refutation."
 },
 "C05": {
  "note": "initialize(x) erases the past; initialize without x keeps the previous x (shown explicitly)."
 },
 "C09": {
  "note": "Documented behaviour refuted for inactive senders (concrete witness), proved for inactive receivers."
 },
 "C10": {
  "note": "Includes the poisoned-agents refutation for failed constructions."
 },
 "C13": {
  "note": "Refutation of row-stochasticity for every graph with a self-loop."
 },
 "C27": {
  "note": "Messages as heap objects. Positive results for owned messages/single neighbours, exact formula of DiNNO's double count, refutations for shared messages."
 },
 "C23": {
  "note": "Algorithms run on the network model (broadcast, inboxes, mixing); lossless channels, all agents active; W arbitrary doubly stochastic (columns)."
 },
 "C49": {
  "note": "Every lawful generator (permutation contract), every call sequence. Includes the limit: samples need not be balanced (C49_unbalanced)."
 },
 "C50": {
  "note": "Refuted for mini-batches (all run lengths) and for resuming; proved for full-batch costs and every algorithm/metric list; counters unaffected for every metric program."
 },
 "C56": {
  "note": "Exact iff; refutation when the second enumerated label is 0."
 },
 "C57": {
  "note": "Proved for lists of other length, 'all', drawn batches; refuted for lists as long as the data set."
 },
 "C58": {
  "note": "Proved on success for every solver; refuted on exception."
 },
 "C51": {
  "note": "Value, gradient and Hessian of every expression; also exact conditions for success and for the TypeErrors (quadratic under explicit indices) and signature mismatches."
 },
 "C52": {
  "note": "Atoms (quadratic incl. 1e-10 eigenvalue tolerance, L1, L2, fractional, linear, logistic) and every expression; C52_not_tight shows the bounds are not optimal."
 },
 "C53": {
  "note": "Unique minimiser; also the non-convex quadratic limit and the descent-only guarantee of the fractional regulariser."
 },
 "C54": {
  "note": "Unique minimiser for SPD A; refutation for non-symmetric A; linear-regression sums solved by least squares."
 },
 "C55": {
  "note": "Fr\u00e9chet derivatives (HasFDerivAt/HasGradientAt), Hessians as derivatives of gradients, per-sample means."
 },
 "C59": {
  "note": "Steps performed, stop condition, max_tol check, rejections, exact step count without tolerance; any step function that leaves x_old alone (gradientDescent and AGD proved to)."
 },
 "C68": {
  "note": "AGD / immutable frameworks proved; refuted for in-place gradient descent for every successful run."
 },
 "C69": {
  "note": "Sublinear, linear and last-move bounds for the default step."
 },
 "C70": {
  "note": "Both accelerated rates with the default momentum."
 },
 "C71": {
  "note": "solve without tolerances obeys the rate; constant costs refused; refutation of accuracy under tolerances."
 },
 "C72": {
  "note": "Rate of the returned point and the refusals."
 },
 "C60": {
  "note": "The cleaning map, and that every row of every computed frame is cleaned."
 },
 "C61": {
  "note": "Table taken from a cached plot equals recomputation; the iterations plotted; the cache returns the most recent computation."
 },
 "C64": {
  "note": "Duplicates reported exactly; metric descriptions and algorithm names accepted iff distinct."
 },
 "C73": {
  "note": "Semantics of plot points and table cells, trial-order independence, bounds, divergence; two refutations (std rows, opposite infinities)."
 },
 "C62": {
  "note": "Queue messages are any permutation of the trials' records; includes the refutation for trials resumed at their last iteration."
 },
 "C63": {
  "note": "84 = 12 markers x 7 line styles; with colours 1092."
 },
 "C77": {
  "note": "Model ends at the data handed to the plotting calls; three refuted readings are theorems (band, cost axis, missing algorithm)."
 },
 "C78": {
  "note": "Frames as lists of rows."
 },
 "C75": {
  "note": "Exact arithmetic; lru_cache not modelled (views are immutable and hashed by identity). Four refuted readings are theorems."
 },
 "C76": {
  "note": "The link from the federated run to the counters is C66."
 },
 "C79": {
  "note": "scikit-learn's accuracy_score, precision_score(micro), recall_score(micro), mean_squared_error are modelled by their documented formulas."
 },
 "C74": {
  "note": "Exact real arithmetic; linspace(dtype=int) rounds down exactly."
 },
 "C80": {
  "note": "LinearTo, SolvesSum, Smooth, JoinedUp are the specification; C80_default is for the network's default weights."
 },
 "C81": {
  "note": "C81_default is for the network's default weights."
 },
 "C82": {
  "note": "Existence, uniqueness and rate in C82_limit; exactness in C82_exact_iff; bias in C82_bias; all together for the default weights in C82_default."
 },
 "C83": {
  "note": "C83_run is the iterates, C83_isolated the failure, C83_linear the rate."
 },
 "C84": {
  "note": "AdmmRest is the specification."
 },
 "C85": {
  "note": "LtRest and localTraining are the specification."
 },
 "C86": {
  "note": "C86_not_docstring is a refutation of the docstring's formula."
 },
 "C87": {
  "note": "SampleMeans, EpochStart, digingDoc are the specification. Conditional unbiasedness inside an epoch does not hold in the code: batches are determined there (C87_inside_epoch_determined)."
 },
 "C88": {
  "note": "PdIdeal, augSteps, pdDoc are the specification of ideal runs."
 },
 "C89": {
  "note": "ClientsSmooth and BestForClients are the specification. The rate is proved for num_local_steps = 1; no claim is made about the rate with more local steps."
 },
 "C90": {
  "note": "meanProx/proxSteps are the documented recursion (specification). Client selection none (all active clients); under partial participation only the round-level claims C29-C31 apply."
 },
 "C91": {
  "note": "Convergence is proved for num_local_steps = 1; for more local steps only the characterisation of resting states."
 },
 "C92": {
  "note": "Convergence is proved for num_local_steps = 1 and alpha = 1/(2 step_size); the one-step recursion is proved for every alpha."
 },
 "C93": {
  "note": "ProxOf states the optimality condition of the proximal. nesterov/adam local solvers are not covered by the resting-state claim."
 },
 "C94": {
  "note": "Metrics that do disturb a trial (mini-batch costs) are C50. RuntimeMetric.update_plot's no_count is C04/C50_counters."
 },
 "C95": {
  "note": "Exact real arithmetic."
 },
 "C96": {
  "note": "Two metric objects of one class share a figure and, within a trial, a line (example in the file). Drawing by matplotlib, timeouts and forced termination are not modelled: the messages are those the process takes from the queue."
 },
 "C97": {
  "note": "Data set as a list; torch.randperm and the loader's sampler as permutations of an abstract generator."
 },
 "C98": {
  "note": "Exact real arithmetic; dropout, buffers, train/eval switching and compilation not modelled."
 },
 "C99": {
  "note": "The effect of the scheduler on the optimizer is not modelled."
 },
 "C100": {
  "note": "The frameworks' own numerics are a parameter Lib; EntryWise names the law used."
 },
 "C101": {
  "note": "Views are index lists into a buffer."
 },
 "C102": {
  "note": "Casting to a dtype is a parameter; only the identity of casting stored values is assumed where stated."
 },
 "C103": {
  "note": "Method bodies are arbitrary functions on values and the heap."
 },
 "C104": {
  "note": "Stochastic mini-batches are covered only where they are whole batches; the threshold is existential."
 },
 "C105": {
  "note": "Threshold existential; the counterexample uses user parameters tau=1, beta=1, not the defaults."
 },
 "C106": {
  "note": "Exact gradients; the flips are a tape that nothing else reads (random.random used by nothing else in the run)."
 },
 "C107": {
  "note": "Exact gradients; existence of the limit is a hypothesis (it fails for large steps). LED/K-GT need convergence of the dual variables too."
 },
 "C108": {
  "note": "Iterations increased by a recorded resumption are outside History here (per trial in C39; C108_plan links the two). Trials that raise while reading files cannot occur in these histories (C108_available)."
 },
 "C109": {
  "note": "Computation of the frames themselves is a parameter here (C56-C64)."
 },
 "C110": {
  "note": "PyTorch variants not modelled; single-agent regression is outside the optimality theorem (its solver runs on mini-batch gradients when batch_size < 10)."
 },
 "C111": {
  "note": "expectation = tapeMean, the recursion over independent outcomes; outcomes are tied to the run through active_agents() and messages() (Followed), and C111_random_activation discharges this for an activity table in the oracle state"
 },
 "C112": {
  "note": "expectation = finite sums over outcomes of one draw and tapeMean over independent draws; random.sample is a parameter with its documented contract (UniformSample); real arithmetic"
 },
 "C113": {
  "note": "values that are not numbers are one constructor (comparisons raise TypeError); x0, names and selection schemes are not constructor-checked in the code"
 },
 "C114": {
  "note": "only x0 is tracked; z0, c0 and the resolved num_local_steps are stored the same way (the latter is in C113)"
 },
 "C115": {
  "note": "Number formatting, to_string and to_latex are parameters; validity of a format string does not depend on the number. Creating the directory and failing writes are not modelled."
 },
 "C116": {
  "note": "Handlers' text layout, a dead manager process and changes the user makes to the root logger are not modelled."
 },
 "C117": {
  "note": "The download, the array frameworks and random transforms are not modelled; label arrays of mixed kind (which numpy turns into strings) are not modelled; a repeated name of the label column takes its first column."
 },
 "C118": {
  "note": "DiNNO with more than one local step: resting states only, no rate. The triangle claim is about the in-place model of C27."
 },
 "C119": {
  "note": "Exact arithmetic; runs without losses, compression and noise. Equal hidden units: one hidden layer."
 },
 "C120": {
  "note": "ASCII digits; natural iteration numbers. C120_legacy_refuted is a defect: keep_n_checkpoints=1 on a directory of an older version."
 },
 "C121": {
  "note": "Framework conversion is the identity. C121_federated is a defect of pytorch_initialization on default federated networks."
 },
 "C122": {
  "note": "Lossless, exact messages. EnoughSteps is sufficient, not claimed necessary. The nesterov and adam local solvers are not covered."
 },
 "C123": {
  "note": "Each scheme reads its own tape; in the program the schemes share one generator (independent draws either way). exists_uniform shows that such draws exist."
 },
 "C124": {
  "note": "Unbounded (Gaussian) noise is not covered; K >= 1 and (1+rho)^2 r < 1 are required."
 },
 "C125": {
  "note": "Unbounded (Gaussian) noise is not covered. The rate statements assume all agents active; the bound (1) does not."
 },
 "C126": {
  "note": "C126_iterations_refuted: the documentation of iterations is false without plot metrics. Metric objects are assumed to be told apart by identity, iterations below 2^32 (the frame column is uint32)."
 },
 "C127": {
  "note": "Losses that hit some clients more often are not covered here; C124 bounds their effect and shows that it can be a permanent bias. Distorted messages are covered by C124."
 },
 "C128": {
  "note": "networkx (relabel_nodes, star_graph, is_connected, edges, to_numpy_array) is modelled by its documented behaviour. Mutating the graph after construction is outside, except that the weights matrix is fixed when first read."
 },
 "C129": {
  "note": "Full gradients of every client (no mini-batches); momentum, proximal term and server momentum are outside this rate (C31 covers their documented updates). Sample counts are parameters, as returned by infer_client_data_size."
 },
 "C130": {
  "note": "The cost object shared between agent and view is not part of the model of a view (counting of calls is C04). networkx relabelling and copying are modelled by their documented behaviour. The least-recently-used order of evictions is not modelled: any eviction is allowed."
 },
 "C131": {
  "note": "Real arithmetic, element by element. As in C34, the server is assumed to be reachable (ServerUp)."
 },
 "C132": {
  "note": "Kills and the other files of the directory are C108. Python's json is abstract; a truncated file is not valid JSON because the outer brace is unclosed. Dictionary keys are strings; keys that JSON converts are not modelled."
 },
 "C133": {
  "note": "The archive is one step begun / complete; shutil.make_archive and zip are assumed faithful. Only metadata.json is modelled of the directory here: it is the only file resume rewrites before trials run (completion markers and trials: C37, C108). The time stamp is an input."
 },
 "C134": {
  "note": "Generalises the unbiasedness half of C127 and shows its evenness condition cannot be dropped. Deterministic gradients; the expectation is over who is heard."
 }
}