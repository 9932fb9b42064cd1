# DESIGN

Formal model of team-decent/decent-bench (source in /repo, Python) in Lean 4, with machine-checked
theorems for the properties of `properties.jsonl`.

## Layout

* `lean/Verif/Model/*.lean`  - the model: total functions mirroring the Python functions branch by branch,
  every definition citing file and lines in /repo; simplifications are stated in the comment.
* `lean/Verif/Lemmas/*.lean` - helper lemmas.
* `lean/Verif/Props/*.lean`  - for each property a small specification written without the model's helpers,
  the property theorems (`Cxx_...`), and `example`s showing that concrete non-trivial cases meet the hypotheses.
* `MANIFEST.json` maps each property to its theorems. `seeded/LOG.jsonl` records the seeded-bug trials.

## Trusted base

* Lean 4.33.0 kernel. Axioms: at most `propext`, `Classical.choice`, `Quot.sound`
  (no own axioms, no compiled-code tactics).
* Faithfulness of the model as read from the source (the code is not executed here).

## Modelling conventions

* Python exceptions are values (`Except PyErr a`); a mutating method returns the new state.
* Every random draw is an explicit oracle argument (a stream or a function), so theorems hold for every outcome.
* Floating point is idealised: arrays are vectors over R (or over an arbitrary real module where the
  algorithm only adds and scales). Rounding, overflow, NaN propagation and device placement are not modelled,
  except in the metric sanitiser and cost-constant models where NaN/inf are explicit values.
* The array frameworks (numpy/torch/tf/jax) are represented by the mathematical operation they implement;
  object identity of message buffers is modelled only where it matters (in-place accumulation, C27).
* Costs are over `EuclideanSpace R (Fin d)` (one-dimensional shapes); a matrix factorisation failure (LinAlgError) is an explicit outcome.
* Random generators of the data-partitioning and batch code are an abstract state machine (`Part.Rng`) with the numpy contract
  (`Lawful`: permutations permute, choices are distinct members); theorems hold for every such generator.
* `while` loops carry fuel; the theorems show the fuel suffices.
* networkx graphs are finite vertex lists with a symmetric adjacency; node iteration order is the list order.
* The file system is a map path -> content; crash points are prefixes of the write sequence, with explicit
  truncation points.

## Not modelled

The inside of user-written neural networks (SimpleLinearModel is modelled, C119) and of torch optimizers (PyTorchCost is modelled around them), drawing by matplotlib (the data and the styles handed to it are modelled), the layout of log lines (which messages are printed is modelled, C116), multiprocessing transport, dataset downloads,
the numerics inside numpy/torch/tensorflow/jax (the interoperability layer is modelled around them, C100-C103: libraries are a parameter `Iop.Lib` with named laws, arrays are headers on numbered buffers), performance.

## Plan per property

* **C01 Agent history behaves as a sorted predecessor map** - Model/History: dict + sorted key list, `setItem/getItem/max/min`. Spec: finite map = last write per key. Proof: refinement by induction over the write list (sorted-key invariant, bisect lemma).
* **C02 Snapshot schedule of a run** - Model/Agent `snapshot` inside Model/Run `run`; proved by induction over iterations: recorded keys and stored values.
* **C03 Inbox is a map keyed by (channel, sender)** - Model/Inbox: nested channel->sender->msg association lists; Spec: function (channel,sender) -> Option msg replayed over the op list. Refinement by induction over ops.
* **C04 Cost call counters count exactly the evaluations made outside no_count** - Model/Agent: programs of cost calls / nested no_count blocks / raising evaluations as an inductive syntax; interpreter mirrors `_call_counting`; spec counts evaluations outside blocks. Induction over programs.
* **C05 Agent initialize gives a fresh agent** - Model/Agent `initialize`; equality of results from two arbitrary prior agents; negation for x=None.
* **C06 Message conservation** - Model/Network `send` + reachable states (op list); conserved sum as an invariant over all op sequences and all random oracles.
* **C07 Delivery safety of send** - Model/Network `send` error/success characterisation; `step` clears the inbox.
* **C08 The active set is fixed within an iteration** - Model/Network `activeAgents`, `activeConnected` with caches, scheme state advanced by a query; invariant over query sequences.
* **C09 Documented rejection of inactive senders** - Negation with a concrete 2-agent network where the inactive sender's message is delivered; receiver half proved in general.
* **C10 Agent indexing on network construction** - Model/Network construction with agent id assignment; bijection theorem, sharing rejected, and failing-construction witness.
* **C11 Federated networks never carry client-to-client traffic** - Model/FedNet: send rules; invariant over all op sequences.
* **C12 Metropolis weights are symmetric and doubly stochastic** - Model/Weights over a finite simple graph: double loop writing a matrix as in the code; real arithmetic.
* **C13 Metropolis weights on graphs with self-loops** - Witness with one self-loop; plus general formula of the row sum with loops.
* **C14 Cyclic activation is exactly periodic** - Model/Schemes `cyclic`; Nat modular arithmetic, window count for every start.
* **C15 Stateful activation and drop schemes follow their chains** - Model/Schemes: state machines with explicit draw streams; induction over queries.
* **C16 Client selection returns a valid sample** - Model/Selection: all four schemes with oracle choice/permutations; output validity.
* **C17 Fair selection is balanced** - Model/Selection `fair`: invariant max-min<=1 for every random tie-breaking, by induction over rounds.
* **C18 Top-k compression keeps the k largest entries** - Model/Compression over List R; optimality (best k-sparse approximation) proved from kept-set domination.
* **C19 Declared compressed size equals transmitted entries** - Model/Compression sizes; equality under k<=n and witness for k>n.
* **C20 Quantization error bounds and unbiasedness** - Model/Compression quantisers; expectation as the exact integral of the piecewise-constant draw (measure of {u<p}).
* **C21 Algorithm.run executes exactly the scheduled iterations** - Model/Run: event trace and generic state; split theorem by induction.
* **C22 Initial states cover exactly the network's agents** - Model/InitStates; case analysis.
* **C23 Average dynamics of the primal P2P methods** - Model/P2P: algorithms executed on the network model (broadcast, inbox, mixing); lossless lemma turns inbox sums into W-sums, then double stochasticity.
* **C24 Gradient trackers track the average gradient** - as C23; invariant sum y = sum g by induction over iterations.
* **C25 Dual and correction variables sum to zero** - as C23; invariant sum = 0.
* **C26 ATC does not implement its documented update** - as C23; exact formula of the implemented step, documented step refuted.
* **C27 Summing received messages must not corrupt other agents** - Model/Heap: message buffers with object identity; in-place accumulation; witness of corruption, correctness under separate buffers.
* **C28 Consensual stationary points are fixed, unless messages are lost** - as C23; fixed point theorem and drop witness.
* **C29 Federated averaging is the mean of the received uploads** - Model/Fed: rounds on the federated network model; aggregation lemma.
* **C30 FedProx with zero penalty is FedAvg** - Model/Fed: simulation between FedProx(0) and FedAvg.
* **C31 FedNova normalisation** - Model/Fed FedNova recurrence; telescoping and positivity; witness.
* **C32 SCAFFOLD control variates stay consistent** - Model/Fed Scaffold invariant; witness on drop.
* **C33 FedDyn server state is the mean of the client states** - Model/Fed FedDyn invariant; witness on drop.
* **C34 Adaptive server updates are well defined** - Model/Fed adaptive servers; invariant over delta sequences.
* **C35 Fed-LT server view of client states** - Model/Fed Fed-LT; invariant with ghost 'last uploaded'.
* **C36 Crash-resume equivalence** - Model/Checkpoint: deterministic trial with state (algorithm, network, rng) and saved snapshots; crash schedule as a list; induction on crash schedule.
* **C37 Crash consistency of the checkpoint files** - Model/Checkpoint file-level small steps; witness and conditional invariant.
* **C38 Checkpoint retention** - Model/Checkpoint cleanup; sorting lemma.
* **C39 Extending a benchmark on resume** - Model/Benchmark (resume metadata, iteration arithmetic); arithmetic and witness.
* **C40 Trial seeds** - Model/Seed; modular arithmetic (odd multiplier is injective mod 2^32).
* **C41 RNG state save/restore round trip** - Model/Rng: generators as states+draw function, framework list; round trip; witness.
* **C42 Result trial order after a partial resume** - Model/Checkpoint result assembly; permutation theorem and witness.
* **C43 Agent-keyed dictionaries survive checkpointing** - Model/Benchmark: agent-keyed dictionaries as top-level attributes (the code only compacts top-level attributes); round trip, and refutation one level deeper.
* **C44 Partitions are disjoint and of the requested sizes** - Model/Partition; list lemmas on splits of permutations.
* **C45 Apportionment of counts** - Model/Partition apportionment; integer arithmetic.
* **C46 Shard partitioning covers every sample once** - Model/Partition shards.
* **C47 Label-quantity allocation is sound and complete** - Model/MaxFlow (augmenting paths as in the code, fuel = total demand) + Model/Partition; soundness, termination, completeness by residual cut (Lemmas/MaxFlow, LabelNet, LabelQuantity).
* **C48 Dataset split validates indices** - Model/Partition validation.
* **C49 Mini-batch sampling is epoch-wise** - Model/Batch epoch sampler over the abstract generator `Part.Rng` with the permutation contract `Lawful`; usage counts per epoch.
* **C50 Observing a run must not change it** - Model/Batch: sampler state shared by algorithm and monitoring; witness for all run lengths; neutrality for full batch.
* **C51 Cost algebra is pointwise** - Model/CostAlgebra: the class tree the operators build (sum flattening, scaled folding, zero, regulariser composites, empirical wrappers, signature validation); homomorphism by induction on expressions, exact success/mismatch characterisation. Mini-batch choice is a deterministic argument (full batch or explicit indices).
* **C52 Smoothness and convexity constants are sound under composition** - Model/CostAlgebra constants with NaN/inf explicit (`Fl`); soundness of atoms (Props/CostsConst, Lemmas/Descent) and of every expression by induction (Props/CostCompose).
* **C53 Proximal operators are minimisers** - Model/Costs closed forms and Model/CostAlgebra wrappers; strong convexity / subgradient argument.
* **C54 Centralised solution of quadratic costs** - Model/Costs `solve` for quadratic and linear regressions; matrix algebra; non-symmetric witness.
* **C55 Gradients are the derivatives of the functions** - Model/Costs with Mathlib derivatives (HasFDerivAt / HasDerivAt along lines).
* **C56 Binary label encoding of logistic regression** - Model/Batch: sequential in-place replacement of labels; iff theorem; witness.
* **C57 Explicit indices select exactly those samples** - Model/Batch `getBatchData`; equality when length differs from n; witness.
* **C58 Proximal of logistic regression preserves the batch size** - Model/Batch logistic prox with exception; witness.
* **C59 Centralised solver stopping rules** - Model/Solver: loop with oracle steps; induction on fuel.
* **C60 Metric values are sanitised** - Model/Metrics: extended values with NaN; case analysis.
* **C61 Table metrics agree with plot metrics** - Model/Metrics tables vs plots.
* **C62 Progress bar reaches its total** - Model/Progress: Nat arithmetic, telescoping.
* **C63 Plot styles are unique** - Model/Display: mod/div index pairs.
* **C64 Duplicate detection in names** - Model/Display find_duplicates; count characterisation.
* **C65 P2P runs compute the documented recursions** - as C23; two-run simulation between the network model's run and the documented recursion, by induction over iterations.
* **C66 Client participation accounting** - Model/Fed; consequence of the round lemma `iter_spec`, for an arbitrary algorithm record.
* **C67 Stratified split follows label proportions (bounded drift; not closest)** - Model/Partition stratified split; per-label cumulative rounding bound, determinism of composition, concrete refutation (Props/Partition).
* **C68 Solvers must not modify the caller's starting point** - Model/Solver keeps the caller's array and whether `self.x` shares its buffer; in-place `-=` as a flag; run-level theorem and witness.
* **C69 Gradient descent converges with its default step size** - Lemmas/Convergence (descent lemma, cocoercivity, strong cocoercivity) and Model/Solver's default steps; induction over steps, last-move bound.
* **C70 Accelerated gradient descent reaches the accelerated rates** - Lemmas/Convergence Lyapunov functions for the k/(k+3) and the strongly convex momentum.
* **C71 Accuracy of solve** - Model/Solver dispatch and parameters; explicit three-dimensional ridge refuting the tolerance.
* **C72 Accuracy of the iterative proximal** - Model/Solver `proximalSolver` built with the cost algebra's `+`; C70 applied to the built sum.
* **C73 Aggregation across agents and trials** - Model/Metrics group-by as filtered lists; permutation invariance and order arguments on extended values.
* **C77 What the plots draw** - Model/Display: truncation, lifting, x shift, cost axis, figure grouping, line selection and legend as list functions on rows; matplotlib itself is outside.
* **C78 Selecting metrics and algorithms to display** - Model/Display `displayed`; filter characterisation.
* **C75 Metrics of the agents' states** - Model/StateMetrics on top of Model/History; specification by the writes of the run (last recorded state); certificates from the parabola bounds of Lemmas/Convergence.
* **C76 Fraction of selected clients** - Model/StateMetrics; double counting of the selection relation.
* **C79 Prediction metrics** - Model/StateMetrics with the scikit-learn scores as counting functions; sum over classes of per-class counts.
* **C74 Measured convergence rate** - Model/Elbow; regression by Pythagoras, grid search by an invariant of the interval, wrong breakpoints by strict covariance of monotone sequences.
* **C80 ED and NIDS find the minimiser of the sum, linearly, for every step size below 2/L** - C65 turns the run into the documented recursion; stacked in one Hilbert space (PiLp), the step is firmly non-expansive in primal plus dual energy with the spectral gap of (I-W)/2 (exists because the network is connected); optimum exists by Banach's theorem
* **C81 EXTRA finds the minimiser of the sum, linearly, for step sizes below 2 min_i W_ii / L** - C65 plus an exact energy identity for the two-term recursion rewritten with the running sum of the iterates; decrease by cocoercivity, Young and the spectral gap
* **C82 DGD converges linearly, but to a point biased by O(step size)** - contraction of v -> W v - rho grad(v) on the stacked space (Baillon-Haddad for both parts), Banach; bias by strong monotonicity against the test point x* + rho u with (I - W) u = -grad(x*)
* **C83 ADMM computes its documented iterates and finds the minimiser of the sum, linearly, for all penalties and relaxations** - per-message step lemma for tellEach (Lemmas/Tell), then induction; convergence by relaxed Peaceman-Rachford splitting on the stacked arc variables with strong convexity and smoothness (Lemmas/Arcs)
* **C84 ADMM's resting states are exactly the optimal ones and survive any losses and inactivity** - step lemma for arbitrary activity and losses: each z_ij is either relaxed towards the sender's message or kept; existence of the dual flow from solvability of the graph Laplacian
* **C85 LT-ADMM computes the documented local-training iterates, rests exactly at the optimum, and LT-ADMM-VR with whole batches is LT-ADMM** - same step lemmas as C83/C84; local training unfolded by induction on the number of local steps; the tau-fold map and the single step commute, so a fixed point of the former is one of the latter by contraction
* **C86 ATG tracks: its unchanged states are consensual optima; its z update is not the one in its docstring** - two-channel tellEach step lemma, induction; at rest z_ij + z_ji = 2 rho y_j makes the y agree and equal the average
* **C87 Variance reduction: exact with fresh memory, unbiased at the start of an epoch, and a memory that only holds past gradients** - step lemmas of Lemmas/P2PSteps2 and Lemmas/Variance; expectation as a sum over all permutations (the first slice of a uniformly random permutation has the mean of all samples), tied to the modelled sampler Batch.draw
* **C88 FedPD rounds: local augmented steps, dual update, centre synchronisation, silence** - Model/FedPd.lean on the network model of Model/Network.lean; Lemmas/FedPd.lean describes one iteration from outside (PdRound), runs by induction; the documented recursion pdDoc is the specification
* **C89 FedPD stops only at a solution, and with one local step it converges linearly** - Lyapunov function |x-x*|^2/step_size + penalty*|lambda+grad(x*)|^2 summed over the clients; per-client inequality whose cross term vanishes in the sum because the centre is the mean of the candidates; contraction of the augmented gradient step for the resting states
* **C90 FedAvg and FedProx converge, to the optimum only for one local step or shared minimisers** - round lemma mean_round on ideal networks gives the recursion; the local map of FedProx is a contraction in the broadcast model with factor (1-step*penalty)*sqrt(1-step*m)+step*penalty; Banach fixed point; strict convexity of powers for the biased example
* **C91 SCAFFOLD: where it stops, convergence with one local step, and the permanent bias of a lost upload** - round lemma on ideal networks; gradient steps of size < 2/L that return to their start started at a stationary point (descent lemma, no convexity); Banach on the tilted mean cost; discrepancy invariance from C32
* **C92 FedDyn: where it stops, gradient-descent case, and the permanent bias of a lost upload** - as C91, with the proximal term included in the tilted local cost; discrepancy invariance from C33
* **C93 Fed-LT stops only at a minimiser of server cost plus client costs** - round lemma lt_round on ideal networks; stationarity of the local subproblems by gd_return; optimality condition of the server's proximal
* **C94 Runtime metrics: publication schedule, isolation from the trial, and trials that raise** - Model/RuntimeMetric: calls return the state left behind and the exception; induction over iterations and over the metric list against the plain iteration relation Done
* **C95 Values of the predefined runtime metrics** - computes modelled by formula in a real normed space; memory of RuntimeRegret explicit; induction over calls
* **C96 The runtime plotter draws what was sent, per metric class, algorithm and trial** - plotter dictionaries as PyDicts, messages folded; reverse induction over the message list
* **C97 PyTorchCost: which samples an evaluation uses** - Model/TorchCost: batch state with cached rows and loader iterator; invariant over histories (cached rows are the rows of batch_used, remaining indices are a suffix of a permutation), induction over events
* **C98 PyTorchCost: function, gradient, per-sample gradients and predict** - Model/TorchCost: network as loss and gradient functions of parameter tensors and sample lists; chunk folds equal flat means by induction over chunks
* **C99 PyTorchCost: local training** - Model/TorchCost: storages by number, parameters as views of the caller's tensor, optimizer as a state transformer; induction over chunks and iterations against docTrain
* **C100 Interoperable operators: entrywise on one framework, refused across frameworks** - Model/Iop: values as headers on numbered buffers, libraries as a parameter; dispatch mirrors the isinstance chains; case analysis over kinds
* **C101 Interoperable arrays: aliasing, copies and in-place updates** - Model/Iop: small imperative language over a heap; invariant (sound variables, calm calls) and induction over programs
* **C102 Conversions between frameworks** - Model/Iop: conversion functions as in the code; case analysis, sharing as equality of buffer and indices in every later heap
* **C103 Decorated cost methods: conversion of arguments and results** - Model/Iop wrapper: argument conversion as a fold, annotation as the value of __annotations__; induction over the argument lists
* **C104 Gradient-tracking methods converge linearly for small step sizes** - Props/Tracking on the P2P model: each run equals a tracking recursion on the stack of states; small-gain argument in Lemmas/SmallStep (mean contracts, disagreement shrinks, perturbation of order of the step size), K-GT by bounding the drift of the local steps
* **C105 Wang-Elia and LED for small step sizes; where LED diverges** - Props/PrimalDual: energy in primal error and dual preimage, gap of the network, small-gain over the sequence (Lemmas/SmallStep2); counterexample by explicit two-dimensional recursion
* **C106 ProxSkip converges linearly in expectation over its communication coin** - Lemmas/CoinTape: views of the oracle state left alone by schemes; Props/ProxSkip: run = fold over the flips, expectation as weighted recursion over flip sequences, energy in primal error and dual preimage decreases in mean
* **C107 A convergent run has converged to a stationary consensus, convex or not** - Props/Limits: pass to the limit in the documented recursions (C65, C104, C105) on stacks, continuity of gradients and linear maps, kernel of I-W on a connected network, average-descent law (C23) for the sum of gradients
* **C108 A whole benchmark killed and resumed** - Model/BenchDir.lean (whole directory, calls as operation lists, processes as interleavings, kill = prefix); invariant Initialised over History by induction, run phase projected to C36's per-trial invariant
* **C109 Metric results in the checkpoint directory** - Model/MetricsFile.lean on top of BenchDir.Root; shape of a successful call, then case analysis over its six file operations; loading reuses C39/C78 models
* **C110 Ready-made problems** - Model/Problems.lean: the builders over the cost algebra, solver and partition models, scikit-learn's generators as functions of (seed, n) or draws; positive definiteness of the drawn matrices by the Cauchy-Schwarz bound, sums by partition counting, solver by C54/C70/C71
* **C111 ADMM with random inactivity and message loss converges linearly in mean square** - spec admmRound/admmRounds folds over a list of outcomes; one-iteration lemma admm_step_seen exposes active agents and received messages; the rate uses the potential inf over fixed points p of sum_a |z_a - p_a|^2 / P_a plus a multiple of the (stale) x error, with the deterministic descent inequality of the relaxed Peaceman-Rachford step
* **C112 Client sampling in FedAvg and FedProx is unbiased, with the finite-population variance and a mean-square limit** - C112_round/C112_run tie the server model to the selection counters; Lemmas/Sampling proves mean and variance of the average of a sample without replacement from equal inclusion probabilities of clients and pairs; UniformSample -> FairChoice by counting injections and permuting positions; tape_floor turns the one-round bound into the limit
* **C113 Which hyper-parameters the algorithm constructors accept** - Model/Params transcribes every __post_init__ over a type of Python values with Python's comparison semantics; the spec is a table of documented ranges per algorithm; each check is proved to guard exactly its range (Guards) and sequences compose
* **C114 Using an algorithm object for several runs** - resolveX0 returns the states used and the new value of self.x0; idempotence of initial_states follows from its specification C22 and shape preservation
* **C115 What the displayed tables show** - Model/Tables: frames in a heap (deep copy = new frame), entries numbers or strings, number formatting and table rendering as parameters, loop over the metrics writing into the copy, join, pivot, log and files; aggregation of raw frames into rows on top of the cells of Model/Metrics. Proof: invariant of the loop (rows of the metrics done so far are formatted, others untouched), uniqueness of keys, frame rule for the heap.
* **C116 Which log messages are printed** - Model/Logging: root logger of the main process (handlers, level), queues with their listeners, console; actions = main logs, trial logs, a listener handles one record; calls = serial or parallel with an arbitrary action list. Proof: the number of copies of a record on the console plus those due in running listeners is an invariant advanced only by logging; simulation by a three-state mode; exact order when nothing runs in the background.
* **C117 Kaggle and PyTorch datasets, and what counts as the same label** - Model/Handlers: frames as column names and rows, selection of columns with KeyError, conversion as a parameter, PyTorch datasets as item function plus optional attributes, label normalisation with NaN named by where it was made. Proofs by induction over columns, rows and partitions, on top of C44-C48 for the partitioners.
* **C118 DLM and DiNNO solve the problem with JAX and TensorFlow, and not with NumPy and PyTorch on a triangle** - Model/Linearised: both algorithms on the network model with sums that make new arrays (the in-place variant is Model/Alias). Recursions by induction over iterations; convergence by a Lyapunov argument (three-point inequality, dual variable in the range of the Laplacian), resting states by the exact local problem being strongly convex; the triangle by passing to the limit in the three sums.
* **C119 SimpleLinearModel: shapes, silent activation names, gradients, and networks that never train from the default start** - Model/Mlp: the list of layers the constructor builds, evaluation and back-propagation on lists of reals (relu slope 0 at 0, as in torch). Shapes and affine collapse by induction over the hidden sizes; gradients by the chain rule along curves of parameters; never-training by a subspace (only output biases non-zero / equal hidden units) that gradients map to itself and that linear recursions of gradients never leave.
* **C120 Checkpoint files by name: numbers of any length, files of older versions, and foreign files** - Model/CkptNames: a trial directory as a dictionary from names (lists of characters) to contents, with the two globs, the regular expression, zero-padded decimals and the marker holding a name; listing order is any permutation. A simulation relation to Model/Checkpoint (each named file is the numbered one, other files unchanged) is kept by every operation, save, loop, session and crash; the legacy and foreign cases by computing what the clean-up sorts.
* **C121 Ready-made starting points** - Model/Starts: the three functions on the X0Env of Model/Run with an abstract generator; drawn states by an inductive specification; composition with initial_states by resolve_again (C114), with the torch model of C98 and the FedAvg runs of C29.
* **C122 Fed-LT converges linearly to the minimiser, also with sampled clients** - Model/Fed fedLT/ltGd. C122_round: one round is the documented one of the clients selected; Lemmas/FedLtRate: reflected proximals contract (strongly convex smooth) or do not expand (server), inexactness absorbed by a weighted pair of distances; sampling by weighting each client with the inverse of its chance, tape_decay of C111.
* **C123 How often agents are active and messages are dropped** - Model/Schemes (C15) on a random tape: Lemmas/Tape shows that a draw at a position the program has reached is uniform and independent of everything decided before, also when the position is random (GilbertElliott draws once or twice); two-state recurrences; renewal squeeze for Poisson; Mathlib's strong law.
* **C124 FedAvg and FedProx on unreliable networks** - Model/Fed (C29): one local step contracts by 1-eta(mu+m) (strong cocoercivity), K steps give the affine recursion, the mean of received uploads keeps the bound, rounds without upload keep the model; the count of informed rounds is defined from the runs themselves. Compressors through C18 and C20.
* **C125 DGD and ATC on unreliable peer-to-peer networks** - Model/P2PAlgos, Model/Network (C23, C28): one iteration for arbitrary World (LossyAny: active set, heard neighbours, the values that arrived); the own part a(x-y) - eta(g x - g y) contracts by a - eta m (strong cocoercivity), the heard messages are a weighted mean, lost weight appears as a pull to the origin; the lost weight is defined from the inboxes after the iteration.
* **C126 What a metric result reports about itself** - Model/Results: MetricResult with its accessors and update, computeMetrics composed of the frame model of C60-C64; the frames named by descriptions are shown to be one per available metric in order (distinct descriptions imply distinct objects), their rows are those of C60.
* **C127 Random, even losses slow FedAvg down but do not bias it** - Model/Fed: the round lemma of C29 gives the mean over the inbox (C127_round); conditioning on the number of uploads turns an even loss into the fair choice of C112, whose variance formula is summed over the sizes; coins are shown even by permuting them.
* **C128 A network has the topology of the graph it was built from** - Model/Topology: networkx graphs as ordered nodes and neighbours with edge weights; relabelling adds the renamed edges one by one; invariants by induction over insertions; the constructor is that of Model/Construct with connectedness computed from the relabelled graph. The results are Net.WF, JoinedUp and IsFed, the hypotheses of the other network properties.
* **C129 FedNova converges to the minimiser of the mean loss over samples, up to O(step size)** - The executable model of FedNova in Model/Fed; C31's documented round gives the round as one function of the clients heard; a local-drift bound and one gradient step on the weighted objective with effective step tau_eff*eta give the contraction; induction over iterations.
* **C130 What a metrics view shows, and for how long** - Model/Views: history objects on a heap, agents hold addresses; proved to refine the agents of Model/Agent (C130_agents). Invariant: different agents hold different live addresses, an address given up at initialize is never written again. The graph of the view is the relabelled and copied graph of Model/Topology. lru_cache is an association list with arbitrary evictions.
* **C131 An adaptive server moves at most a constant per round, whatever is uploaded** - Invariant per coordinate: v >= 0 and m^2 <= q v, with q the square of the bound (without the step size). One round preserves it because (beta_1 m + (1-beta_1) d)^2 <= q (a v + c d^2) and the new second moment is at least a v + c d^2. The refuted claim is run for two rounds over an ideal network.
* **C132 Users' metadata and the counters of resume share one dictionary** - Model/Metadata: the file absent, unreadable or readable; benchmark_metadata one dictionary. Invariant over histories: the two counters read as the totals so far, everything stored is its own JSON image, users' entries are as last given. Dictionary lemmas by induction on entries.
* **C133 With backups no kill loses the benchmark** - Model/Backup: metadata file and archives; a resume is a list of file operations, a kill keeps a prefix. Invariant over histories: the file is readable with counters between the two totals, or unreadable and the last archive is so. The contents the file goes through are shown to be those of Model/Metadata's resume.
* **C134 Uneven losses bias FedAvg, even shares are enough for no bias** - Each outcome is one iteration of the model's fedProx in its own world; C127_round gives the new model as the mean over those heard, and the expectation is exchanged with the sum over clients; runs by induction on the length of the loss history.
