{
 "claims": [
  {
   "property": "C01",
   "status": "proved",
   "theorems": [
    "Verif.Props.C01_get_predecessor",
    "Verif.Props.C01_get_before_first",
    "Verif.Props.C01_get_latest",
    "Verif.Props.C01_get_invalid",
    "Verif.Props.C01_set_guard",
    "Verif.Props.C01_keys_sorted",
    "Verif.Props.C01_min_max",
    "Verif.Props.C01_items"
   ],
   "note": "Agent history behaves as a sorted predecessor map"
  },
  {
   "property": "C02",
   "status": "proved",
   "theorems": [
    "Verif.Props.C02_snapshots",
    "Verif.Props.C02_agent_snapshot"
   ],
   "note": "Snapshot schedule of a run"
  },
  {
   "property": "C03",
   "status": "proved",
   "theorems": [
    "Verif.Props.C03_get",
    "Verif.Props.C03_get_absent",
    "Verif.Props.C03_has",
    "Verif.Props.C03_by_channel",
    "Verif.Props.C03_step_exact"
   ],
   "note": "Inbox is a map keyed by (channel, sender)"
  },
  {
   "property": "C04",
   "status": "proved",
   "theorems": [
    "Verif.Props.C04_counters",
    "Verif.Props.C04_depth_restored",
    "Verif.Props.C04_block_silent",
    "Verif.Props.C04_own_cost",
    "Verif.Props.C04_shared_cost_miscounts",
    "Verif.Props.C04_x_updates"
   ],
   "note": "Counters over all programs of evaluations, nested no_count blocks and exceptions; own-cost hypothesis needed, and the shared-cost-object miscount is proved as a separate refutation."
  },
  {
   "property": "C05",
   "status": "proved",
   "theorems": [
    "Verif.Props.C05_initialize_erases_past",
    "Verif.Props.C05_initialize_state",
    "Verif.Props.C05_initialize_bad_shape",
    "Verif.Props.C05_aux_preserved",
    "Verif.Props.C05_initialize_without_x_keeps_x",
    "Verif.Props.C05_without_x_not_fresh",
    "Verif.Props.C05_new"
   ],
   "note": "initialize(x) erases the past; initialize without x keeps the previous x (shown explicitly)."
  },
  {
   "property": "C06",
   "status": "proved",
   "theorems": [
    "Verif.Props.C06_conservation_p2p",
    "Verif.Props.C06_conservation_fed",
    "Verif.Props.C06_dropped_le_sent"
   ],
   "note": "Message conservation"
  },
  {
   "property": "C07",
   "status": "proved",
   "theorems": [
    "Verif.Props.C07_error_changes_nothing",
    "Verif.Props.C07_success_iff",
    "Verif.Props.C07_delivery",
    "Verif.Props.C07_step_clears"
   ],
   "note": "Delivery safety of send"
  },
  {
   "property": "C08",
   "status": "proved",
   "theorems": [
    "Verif.Props.C08_active_stable",
    "Verif.Props.C08_neighbours_agree",
    "Verif.Props.C08_consulted_once"
   ],
   "note": "The active set is fixed within an iteration"
  },
  {
   "property": "C09",
   "status": "proved",
   "theorems": [
    "Verif.Props.C09_inactive_sender_accepted",
    "Verif.Props.C09_inactive_receiver_rejected"
   ],
   "note": "Documented behaviour refuted for inactive senders (concrete witness), proved for inactive receivers."
  },
  {
   "property": "C10",
   "status": "proved",
   "theorems": [
    "Verif.Props.C10_indices",
    "Verif.Props.C10_indices_bijective",
    "Verif.Props.C10_networks_disjoint",
    "Verif.Props.C10_failed_construction_poisons",
    "Verif.Props.C10_p2p_accepts",
    "Verif.Props.C10_fed_accepts"
   ],
   "note": "Includes the poisoned-agents refutation for failed constructions."
  },
  {
   "property": "C11",
   "status": "proved",
   "theorems": [
    "Verif.Props.C11_no_client_to_client",
    "Verif.Props.C11_rejected",
    "Verif.Props.C11_client_default_receiver"
   ],
   "note": "Federated networks never carry client-to-client traffic"
  },
  {
   "property": "C12",
   "status": "proved",
   "theorems": [
    "Verif.Props.C12_symmetric",
    "Verif.Props.C12_nonneg",
    "Verif.Props.C12_support",
    "Verif.Props.C12_doubly_stochastic"
   ],
   "note": "Metropolis weights are symmetric and doubly stochastic"
  },
  {
   "property": "C13",
   "status": "proved",
   "theorems": [
    "Verif.Props.C13_self_loop_not_stochastic"
   ],
   "note": "Refutation of row-stochasticity for every graph with a self-loop."
  },
  {
   "property": "C14",
   "status": "proved",
   "theorems": [
    "Verif.Props.C14_ctor",
    "Verif.Props.C14_negative",
    "Verif.Props.C14_periodic",
    "Verif.Props.C14_window",
    "Verif.Props.C14_pattern"
   ],
   "note": "Cyclic activation is exactly periodic"
  },
  {
   "property": "C15",
   "status": "proved",
   "theorems": [
    "Verif.Props.C15_poisson",
    "Verif.Props.C15_markov",
    "Verif.Props.C15_markov_extremes",
    "Verif.Props.C15_gilbert_elliott",
    "Verif.Props.C15_gilbert_elliott_extremes",
    "Verif.Props.C15_bernoulli_probability",
    "Verif.Props.C15_markov_probability"
   ],
   "note": "Stateful activation and drop schemes follow their chains"
  },
  {
   "property": "C16",
   "status": "proved",
   "theorems": [
    "Verif.Props.C16_uniform",
    "Verif.Props.C16_data_size",
    "Verif.Props.C16_fair",
    "Verif.Props.C16_fair_stable",
    "Verif.Props.C16_high_loss",
    "Verif.Props.C16_size_guard"
   ],
   "note": "Client selection returns a valid sample"
  },
  {
   "property": "C17",
   "status": "proved",
   "theorems": [
    "Verif.Props.C17_fair_balanced",
    "Verif.Props.C17_fair_share"
   ],
   "note": "Fair selection is balanced"
  },
  {
   "property": "C18",
   "status": "proved",
   "theorems": [
    "Verif.Props.C18_topk",
    "Verif.Props.C18_topk_best",
    "Verif.Props.C18_topk_contraction",
    "Verif.Props.C18_randk",
    "Verif.Props.C18_randk_mean"
   ],
   "note": "Top-k compression keeps the k largest entries"
  },
  {
   "property": "C19",
   "status": "proved",
   "theorems": [
    "Verif.Props.C19_declared_size",
    "Verif.Props.C19_overcount"
   ],
   "note": "Declared compressed size equals transmitted entries"
  },
  {
   "property": "C20",
   "status": "proved",
   "theorems": [
    "Verif.Props.C20_quantization",
    "Verif.Props.C20_quantization_ties",
    "Verif.Props.C20_stochastic",
    "Verif.Props.C20_unbiased"
   ],
   "note": "Quantization error bounds and unbiasedness"
  },
  {
   "property": "C21",
   "status": "proved",
   "theorems": [
    "Verif.Props.C21_guard",
    "Verif.Props.C21_schedule",
    "Verif.Props.C21_exception",
    "Verif.Props.C21_iterations_guard",
    "Verif.Props.C21_split"
   ],
   "note": "Algorithm.run executes exactly the scheduled iterations"
  },
  {
   "property": "C22",
   "status": "proved",
   "theorems": [
    "Verif.Props.C22_none",
    "Verif.Props.C22_array",
    "Verif.Props.C22_dict_p2p",
    "Verif.Props.C22_dict_fed"
   ],
   "note": "Initial states cover exactly the network's agents"
  },
  {
   "property": "C23",
   "status": "proved",
   "theorems": [
    "Verif.Props.C23_dgd",
    "Verif.Props.C23_simple_gt",
    "Verif.Props.C23_ed",
    "Verif.Props.C23_nids",
    "Verif.Props.C23_extra",
    "Verif.Props.C23_wang_elia",
    "Verif.Props.C23_aug_dgm",
    "Verif.Props.C23_atc_tracking"
   ],
   "note": "Algorithms run on the network model (broadcast, inboxes, mixing); lossless channels, all agents active; W arbitrary doubly stochastic (columns)."
  },
  {
   "property": "C24",
   "status": "proved",
   "theorems": [
    "Verif.Props.C24_aug_dgm",
    "Verif.Props.C24_atc_tracking",
    "Verif.Props.C24_gt_saga",
    "Verif.Props.C24_gt_vr",
    "Verif.Props.C24_gt_vr_snapshot",
    "Verif.Props.C24_gt_sarah"
   ],
   "note": "Gradient trackers track the average gradient"
  },
  {
   "property": "C25",
   "status": "proved",
   "theorems": [
    "Verif.Props.C25_led",
    "Verif.Props.C25_prox_skip",
    "Verif.Props.C25_wang_elia",
    "Verif.Props.C25_kgt"
   ],
   "note": "Dual and correction variables sum to zero"
  },
  {
   "property": "C26",
   "status": "proved",
   "theorems": [
    "Verif.Props.C26_atc_deviation",
    "Verif.Props.C26_single_agent_stuck",
    "Verif.Props.C26_refutation"
   ],
   "note": "ATC does not implement its documented update"
  },
  {
   "property": "C27",
   "status": "proved",
   "theorems": [
    "Verif.Props.C27_dlm_documented",
    "Verif.Props.C27_dlm_owned",
    "Verif.Props.C27_dlm_single_neighbour",
    "Verif.Props.C27_dinno_owned_double_count",
    "Verif.Props.C27_dinno_single_owned",
    "Verif.Props.C27_dlm_shared_refuted",
    "Verif.Props.C27_dlm_shared_wrong_state",
    "Verif.Props.C27_dinno_shared_refuted"
   ],
   "note": "Messages as heap objects. Positive results for owned messages/single neighbours, exact formula of DiNNO's double count, refutations for shared messages."
  },
  {
   "property": "C28",
   "status": "proved",
   "theorems": [
    "Verif.Props.C28_dgd_fixed_point",
    "Verif.Props.C28_lossy_iff",
    "Verif.Props.C28_drop_breaks_fixed_point"
   ],
   "note": "Consensual stationary points are fixed, unless messages are lost"
  },
  {
   "property": "C29",
   "status": "proved",
   "theorems": [
    "Verif.Props.C29_fedavg_mean_of_uploads",
    "Verif.Props.C29_fedprox_mean_of_uploads",
    "Verif.Props.C29_mean_between",
    "Verif.Props.C29_fedavg_clients",
    "Verif.Props.C29_fedavg_ideal_run",
    "Verif.Props.C29_local_steps"
   ],
   "note": "Federated averaging is the mean of the received uploads"
  },
  {
   "property": "C30",
   "status": "proved",
   "theorems": [
    "Verif.Props.C30_fedprox_zero_is_fedavg",
    "Verif.Props.C30_local_steps"
   ],
   "note": "FedProx with zero penalty is FedAvg"
  },
  {
   "property": "C31",
   "status": "proved",
   "theorems": [
    "Verif.Props.C31_cumulative_is_displacement",
    "Verif.Props.C31_coefficient_documented",
    "Verif.Props.C31_coefficient_plain",
    "Verif.Props.C31_coefficient_positive",
    "Verif.Props.C31_coefficient_refuted",
    "Verif.Props.C31_round_documented",
    "Verif.Props.C31_equal_steps_is_averaging",
    "Verif.Props.C31_round_refuted"
   ],
   "note": "FedNova normalisation"
  },
  {
   "property": "C32",
   "status": "proved",
   "theorems": [
    "Verif.Props.C32_drift",
    "Verif.Props.C32_preserved",
    "Verif.Props.C32_consistent",
    "Verif.Props.C32_loss_is_permanent",
    "Verif.Props.C32_lost_upload_breaks",
    "Verif.Props.C32_local_steps"
   ],
   "note": "SCAFFOLD control variates stay consistent"
  },
  {
   "property": "C33",
   "status": "proved",
   "theorems": [
    "Verif.Props.C33_drift",
    "Verif.Props.C33_preserved",
    "Verif.Props.C33_consistent",
    "Verif.Props.C33_loss_is_permanent",
    "Verif.Props.C33_lost_upload_breaks",
    "Verif.Props.C33_local_steps",
    "Verif.Props.C33_state_is_gradient"
   ],
   "note": "FedDyn server state is the mean of the client states"
  },
  {
   "property": "C34",
   "status": "proved",
   "theorems": [
    "Verif.Props.C34_deltas",
    "Verif.Props.C34_fedadagrad_well_defined",
    "Verif.Props.C34_fedadam_well_defined",
    "Verif.Props.C34_fedyogi_well_defined",
    "Verif.Props.C34_update_documented",
    "Verif.Props.C34_fedadagrad_monotone",
    "Verif.Props.C34_yogi_controlled"
   ],
   "note": "Adaptive server updates are well defined"
  },
  {
   "property": "C35",
   "status": "proved",
   "theorems": [
    "Verif.Props.C35_gd_solver",
    "Verif.Props.C35_nesterov_solver",
    "Verif.Props.C35_round",
    "Verif.Props.C35_last_upload",
    "Verif.Props.C35_lossless"
   ],
   "note": "Fed-LT server view of client states"
  },
  {
   "property": "C36",
   "status": "proved",
   "theorems": [
    "Verif.Props.C36_crash_resume",
    "Verif.Props.C36_histories_agree"
   ],
   "note": "Crash-resume equivalence"
  },
  {
   "property": "C37",
   "status": "proved",
   "theorems": [
    "Verif.Props.C37_consistent",
    "Verif.Props.C37_truncation_refuted",
    "Verif.Props.C37_complete_window_refuted",
    "Verif.Props.C37_step_change_refuted"
   ],
   "note": "Crash consistency of the checkpoint files"
  },
  {
   "property": "C38",
   "status": "proved",
   "theorems": [
    "Verif.Props.C38_retention",
    "Verif.Props.C38_newest_kept",
    "Verif.Props.C38_skipped_cleanup_refuted",
    "Verif.Props.C38_constructed",
    "Verif.Props.C38_schedule"
   ],
   "note": "Checkpoint retention"
  },
  {
   "property": "C39",
   "status": "proved",
   "theorems": [
    "Verif.Props.C39_rejects",
    "Verif.Props.C39_totals",
    "Verif.Props.C39_forgets_refuted",
    "Verif.Props.C39_stuck_refuted",
    "Verif.Props.C39_extension_equivalent",
    "Verif.Props.C39_extra_trials_not_loaded"
   ],
   "note": "Extending a benchmark on resume"
  },
  {
   "property": "C40",
   "status": "proved",
   "theorems": [
    "Verif.Props.C40_range",
    "Verif.Props.C40_deterministic",
    "Verif.Props.C40_trials_distinct",
    "Verif.Props.C40_all_distinct",
    "Verif.Props.C40_collision_refuted"
   ],
   "note": "Trial seeds"
  },
  {
   "property": "C41",
   "status": "proved",
   "theorems": [
    "Verif.Props.C41_round_trip",
    "Verif.Props.C41_other_process",
    "Verif.Props.C41_seeded_reproducible",
    "Verif.Props.C41_seeded_selection",
    "Verif.Props.C41_numpy_unseeded_refuted",
    "Verif.Props.C41_torch_device_generator_refuted"
   ],
   "note": "RNG state save/restore round trip"
  },
  {
   "property": "C42",
   "status": "proved",
   "theorems": [
    "Verif.Props.C42_resume_order",
    "Verif.Props.C42_each_once",
    "Verif.Props.C42_fresh_order",
    "Verif.Props.C42_position_iff"
   ],
   "note": "Result trial order after a partial resume"
  },
  {
   "property": "C43",
   "status": "proved",
   "theorems": [
    "Verif.Props.C43_round_trip",
    "Verif.Props.C43_unknown_agent",
    "Verif.Props.C43_hash_collision_refuted",
    "Verif.Props.C43_save_leaves_unchanged"
   ],
   "note": "Agent-keyed dictionaries survive checkpointing"
  },
  {
   "property": "C44",
   "status": "proved",
   "theorems": [
    "Verif.Props.C44_iid",
    "Verif.Props.C44_iid_every_assignment",
    "Verif.Props.C44_size",
    "Verif.Props.C44_stratified",
    "Verif.Props.C44_dirichlet"
   ],
   "note": "Partitions are disjoint and of the requested sizes"
  },
  {
   "property": "C45",
   "status": "proved",
   "theorems": [
    "Verif.Props.C45_even_counts",
    "Verif.Props.C45_proportional_counts",
    "Verif.Props.C45_largest_remainders_first"
   ],
   "note": "Apportionment of counts"
  },
  {
   "property": "C46",
   "status": "proved",
   "theorems": [
    "Verif.Props.C46_shard"
   ],
   "note": "Shard partitioning covers every sample once"
  },
  {
   "property": "C47",
   "status": "proved",
   "theorems": [
    "Verif.Props.C47_label_quantity",
    "Verif.Props.C47_default_sizes_can_be_infeasible"
   ],
   "note": "Label-quantity allocation is sound and complete"
  },
  {
   "property": "C48",
   "status": "proved",
   "theorems": [
    "Verif.Props.C48_split_iff",
    "Verif.Props.C48_split_errors"
   ],
   "note": "Dataset split validates indices"
  },
  {
   "property": "C49",
   "status": "proved",
   "theorems": [
    "Verif.Props.C49_batches_valid",
    "Verif.Props.C49_no_third_use_before_all",
    "Verif.Props.C49_coverage",
    "Verif.Props.C49_first_epoch",
    "Verif.Props.C49_other_indices",
    "Verif.Props.C49_epochs",
    "Verif.Props.C49_unbalanced"
   ],
   "note": "Every lawful generator (permutation contract), every call sequence. Includes the limit: samples need not be balanced (C49_unbalanced)."
  },
  {
   "property": "C50",
   "status": "proved",
   "theorems": [
    "Verif.Props.C50_monitoring_changes_batches",
    "Verif.Props.C50_resume_differs",
    "Verif.Props.C50_full_batch_unaffected",
    "Verif.Props.C50_counters"
   ],
   "note": "Refuted for mini-batches (all run lengths) and for resuming; proved for full-batch costs and every algorithm/metric list; counters unaffected for every metric program."
  },
  {
   "property": "C51",
   "status": "proved",
   "theorems": [
    "Verif.Props.C51_value",
    "Verif.Props.C51_gradient",
    "Verif.Props.C51_hessian",
    "Verif.Props.C51_success",
    "Verif.Props.C51_mismatch",
    "Verif.Props.C51_sum",
    "Verif.Props.C51_per_sample"
   ],
   "note": "Value, gradient and Hessian of every expression; also exact conditions for success and for the TypeErrors (quadratic under explicit indices) and signature mismatches."
  },
  {
   "property": "C52",
   "status": "proved",
   "theorems": [
    "Verif.Props.C52_composition",
    "Verif.Props.C52_expression",
    "Verif.Props.C52_not_tight",
    "Verif.Props.C52_quadratic_smooth",
    "Verif.Props.C52_quadratic_smooth_tight",
    "Verif.Props.C52_quadratic_convex",
    "Verif.Props.C52_quadratic_convex_tolerance",
    "Verif.Props.C52_quadratic_tolerance",
    "Verif.Props.C52_l2_smooth",
    "Verif.Props.C52_l2_convex",
    "Verif.Props.C52_l1_convex",
    "Verif.Props.C52_fractional_smooth",
    "Verif.Props.C52_linear_smooth",
    "Verif.Props.C52_linear_convex",
    "Verif.Props.C52_logistic_smooth",
    "Verif.Props.C52_logistic_convex"
   ],
   "note": "Atoms (quadratic incl. 1e-10 eigenvalue tolerance, L1, L2, fractional, linear, logistic) and every expression; C52_not_tight shows the bounds are not optimal."
  },
  {
   "property": "C53",
   "status": "proved",
   "theorems": [
    "Verif.Props.C53_wrappers",
    "Verif.Props.C53_wrappers_reject",
    "Verif.Props.C53_l1",
    "Verif.Props.C53_l2",
    "Verif.Props.C53_penalty",
    "Verif.Props.C53_quadratic",
    "Verif.Props.C53_quadratic_nonconvex",
    "Verif.Props.C53_linear",
    "Verif.Props.C53_fractional_descent"
   ],
   "note": "Unique minimiser; also the non-convex quadratic limit and the descent-only guarantee of the fractional regulariser."
  },
  {
   "property": "C54",
   "status": "proved",
   "theorems": [
    "Verif.Props.C54_quadratic",
    "Verif.Props.C54_quadratic_stationary",
    "Verif.Props.C54_nonsymmetric",
    "Verif.Props.C54_linear_regressions"
   ],
   "note": "Unique minimiser for SPD A; refutation for non-symmetric A; linear-regression sums solved by least squares."
  },
  {
   "property": "C55",
   "status": "proved",
   "theorems": [
    "Verif.Props.C55_quadratic",
    "Verif.Props.C55_quadratic_hessian",
    "Verif.Props.C55_l2",
    "Verif.Props.C55_l2_hessian",
    "Verif.Props.C55_fractional",
    "Verif.Props.C55_fractional_hessian",
    "Verif.Props.C55_l1",
    "Verif.Props.C55_linear",
    "Verif.Props.C55_linear_hessian",
    "Verif.Props.C55_linear_per_sample",
    "Verif.Props.C55_logistic",
    "Verif.Props.C55_logistic_hessian",
    "Verif.Props.C55_logistic_per_sample",
    "Verif.Props.C55_logistic_documented"
   ],
   "note": "Fr\u00e9chet derivatives (HasFDerivAt/HasGradientAt), Hessians as derivatives of gradients, per-sample means."
  },
  {
   "property": "C56",
   "status": "proved",
   "theorems": [
    "Verif.Props.C56_encoding_correct_iff",
    "Verif.Props.C56_zero_second",
    "Verif.Props.C56_roundtrip",
    "Verif.Props.C56_two_classes"
   ],
   "note": "Exact iff; refutation when the second enumerated label is 0."
  },
  {
   "property": "C57",
   "status": "proved",
   "theorems": [
    "Verif.Props.C57_explicit_list",
    "Verif.Props.C57_aligned",
    "Verif.Props.C57_full_length_ignored",
    "Verif.Props.C57_full_length_wrong"
   ],
   "note": "Proved for lists of other length, 'all', drawn batches; refuted for lists as long as the data set."
  },
  {
   "property": "C58",
   "status": "proved",
   "theorems": [
    "Verif.Props.C58_success",
    "Verif.Props.C58_any_solver",
    "Verif.Props.C58_exception"
   ],
   "note": "Proved on success for every solver; refuted on exception."
  },
  {
   "property": "C59",
   "status": "proved",
   "theorems": [
    "Verif.Props.C59_run",
    "Verif.Props.C59_reject",
    "Verif.Props.C59_no_tolerance",
    "Verif.Props.C59_frequency_one"
   ],
   "note": "Steps performed, stop condition, max_tol check, rejections, exact step count without tolerance; any step function that leaves x_old alone (gradientDescent and AGD proved to)."
  },
  {
   "property": "C60",
   "status": "proved",
   "theorems": [
    "Verif.Props.C60_sanitise",
    "Verif.Props.C60_frame",
    "Verif.Props.C60_computed"
   ],
   "note": "The cleaning map, and that every row of every computed frame is cleaned."
  },
  {
   "property": "C61",
   "status": "proved",
   "theorems": [
    "Verif.Props.C61_table_equals_recomputation",
    "Verif.Props.C61_iterations",
    "Verif.Props.C61_most_recent"
   ],
   "note": "Table taken from a cached plot equals recomputation; the iterations plotted; the cache returns the most recent computation."
  },
  {
   "property": "C62",
   "status": "proved",
   "theorems": [
    "Verif.Props.C62_reaches_total",
    "Verif.Props.C62_falls_short",
    "Verif.Props.C62_visible"
   ],
   "note": "Queue messages are any permutation of the trials' records; includes the refutation for trials resumed at their last iteration."
  },
  {
   "property": "C63",
   "status": "proved",
   "theorems": [
    "Verif.Props.C63_marker_style",
    "Verif.Props.C63_all",
    "Verif.Props.C63_distinct"
   ],
   "note": "84 = 12 markers x 7 line styles; with colours 1092."
  },
  {
   "property": "C64",
   "status": "proved",
   "theorems": [
    "Verif.Props.C64_duplicates",
    "Verif.Props.C64_descriptions",
    "Verif.Props.C64_algorithm_names"
   ],
   "note": "Duplicates reported exactly; metric descriptions and algorithm names accepted iff distinct."
  },
  {
   "property": "C65",
   "status": "proved",
   "theorems": [
    "Verif.Props.C65_dgd",
    "Verif.Props.C65_simple_gt",
    "Verif.Props.C65_ed",
    "Verif.Props.C65_nids",
    "Verif.Props.C65_extra",
    "Verif.Props.C65_wang_elia",
    "Verif.Props.C65_aug_dgm",
    "Verif.Props.C65_atc_tracking"
   ],
   "note": "P2P runs compute the documented recursions"
  },
  {
   "property": "C66",
   "status": "proved",
   "theorems": [
    "Verif.Props.C66_selection_counters",
    "Verif.Props.C66_fedavg_counts",
    "Verif.Props.C66_uniform_selection_ok"
   ],
   "note": "Client participation accounting"
  },
  {
   "property": "C67",
   "status": "proved",
   "theorems": [
    "Verif.Props.C67_stratified_composition_deterministic",
    "Verif.Props.C67_stratified_drift",
    "Verif.Props.C67_stratified_not_closest"
   ],
   "note": "Stratified split follows label proportions (bounded drift; not closest)"
  },
  {
   "property": "C68",
   "status": "proved",
   "theorems": [
    "Verif.Props.C68_gradient_descent_overwrites",
    "Verif.Props.C68_overwrite_witness",
    "Verif.Props.C68_caller_untouched"
   ],
   "note": "AGD / immutable frameworks proved; refuted for in-place gradient descent for every successful run."
  },
  {
   "property": "C69",
   "status": "proved",
   "theorems": [
    "Verif.Props.C69_gradient_descent",
    "Verif.Props.C69_monotone",
    "Verif.Props.C69_last_move"
   ],
   "note": "Sublinear, linear and last-move bounds for the default step."
  },
  {
   "property": "C70",
   "status": "proved",
   "theorems": [
    "Verif.Props.C70_accelerated"
   ],
   "note": "Both accelerated rates with the default momentum."
  },
  {
   "property": "C71",
   "status": "proved",
   "theorems": [
    "Verif.Props.C71_tolerance_no_guarantee",
    "Verif.Props.C71_solve",
    "Verif.Props.C71_constant_refused"
   ],
   "note": "solve without tolerances obeys the rate; constant costs refused; refutation of accuracy under tolerances."
  },
  {
   "property": "C72",
   "status": "proved",
   "theorems": [
    "Verif.Props.C72_proximal_solver",
    "Verif.Props.C72_refused"
   ],
   "note": "Rate of the returned point and the refusals."
  },
  {
   "property": "C73",
   "status": "proved",
   "theorems": [
    "Verif.Props.C73_plot",
    "Verif.Props.C73_table",
    "Verif.Props.C73_table_single",
    "Verif.Props.C73_trial_order",
    "Verif.Props.C73_finite",
    "Verif.Props.C73_divergence_shows",
    "Verif.Props.C73_std_leaves_out",
    "Verif.Props.C73_plot_leaves_out",
    "Verif.Props.C73_statistics"
   ],
   "note": "Semantics of plot points and table cells, trial-order independence, bounds, divergence; two refutations (std rows, opposite infinities)."
  },
  {
   "property": "C74",
   "status": "proved",
   "theorems": [
    "Verif.Props.C74_least_squares",
    "Verif.Props.C74_result",
    "Verif.Props.C74_errors",
    "Verif.Props.C74_line",
    "Verif.Props.C74_discards",
    "Verif.Props.C74_geometric",
    "Verif.Props.C74_gap_distorts",
    "Verif.Props.C74_full_grid",
    "Verif.Props.C74_elbow",
    "Verif.Props.C74_breakpoint_off",
    "Verif.Props.C74_wrong_breakpoint",
    "Verif.Props.C74_levelling_short",
    "Verif.Props.C74_refined_grid_misses"
   ],
   "note": "Exact real arithmetic; linspace(dtype=int) rounds down exactly."
  },
  {
   "property": "C75",
   "status": "proved",
   "theorems": [
    "Verif.Props.C75_mean",
    "Verif.Props.C75_mean_error",
    "Verif.Props.C75_not_disregarded",
    "Verif.Props.C75_flat",
    "Verif.Props.C75_at_mean",
    "Verif.Props.C75_regret_sign",
    "Verif.Props.C75_regret_available",
    "Verif.Props.C75_consensus",
    "Verif.Props.C75_consensus_zero",
    "Verif.Props.C75_drift",
    "Verif.Props.C75_convex_certificate",
    "Verif.Props.C75_equivalent",
    "Verif.Props.C75_runtime_agrees",
    "Verif.Props.C75_runtime_regret",
    "Verif.Props.C75_runtime_regret_batches",
    "Verif.Props.C75_runtime_regret_negative",
    "Verif.Props.C75_runtime_at_consensus",
    "Verif.Props.C75_runtime_gradient"
   ],
   "note": "Exact arithmetic; lru_cache not modelled (views are immutable and hashed by identity). Four refuted readings are theorems."
  },
  {
   "property": "C76",
   "status": "proved",
   "theorems": [
    "Verif.Props.C76_fraction",
    "Verif.Props.C76_nan",
    "Verif.Props.C76_failed_trial"
   ],
   "note": "The link from the federated run to the counters is C66."
  },
  {
   "property": "C77",
   "status": "proved",
   "theorems": [
    "Verif.Props.C77_truncation",
    "Verif.Props.C77_y_log",
    "Verif.Props.C77_band_above_mean",
    "Verif.Props.C77_x_log",
    "Verif.Props.C77_total_cost",
    "Verif.Props.C77_cost_axis",
    "Verif.Props.C77_figures",
    "Verif.Props.C77_lines",
    "Verif.Props.C77_missing_algorithm",
    "Verif.Props.C77_legend"
   ],
   "note": "Model ends at the data handed to the plotting calls; three refuted readings are theorems (band, cost axis, missing algorithm)."
  },
  {
   "property": "C78",
   "status": "proved",
   "theorems": [
    "Verif.Props.C78_something",
    "Verif.Props.C78_rows",
    "Verif.Props.C78_raw"
   ],
   "note": "Frames as lists of rows."
  },
  {
   "property": "C79",
   "status": "proved",
   "theorems": [
    "Verif.Props.C79_micro",
    "Verif.Props.C79_same_metric",
    "Verif.Props.C79_accuracy",
    "Verif.Props.C79_mse_binary",
    "Verif.Props.C79_one_broken",
    "Verif.Props.C79_server"
   ],
   "note": "scikit-learn's accuracy_score, precision_score(micro), recall_score(micro), mean_squared_error are modelled by their documented formulas."
  },
  {
   "property": "C80",
   "status": "proved",
   "theorems": [
    "Verif.Props.C80_optimum",
    "Verif.Props.C80_ed",
    "Verif.Props.C80_nids",
    "Verif.Props.C80_default"
   ],
   "note": "LinearTo, SolvesSum, Smooth, JoinedUp are the specification; C80_default is for the network's default weights."
  },
  {
   "property": "C81",
   "status": "proved",
   "theorems": [
    "Verif.Props.C81_extra",
    "Verif.Props.C81_default"
   ],
   "note": "C81_default is for the network's default weights."
  },
  {
   "property": "C82",
   "status": "proved",
   "theorems": [
    "Verif.Props.C82_limit",
    "Verif.Props.C82_exact_iff",
    "Verif.Props.C82_bias",
    "Verif.Props.C82_default"
   ],
   "note": "Existence, uniqueness and rate in C82_limit; exactness in C82_exact_iff; bias in C82_bias; all together for the default weights in C82_default."
  },
  {
   "property": "C83",
   "status": "proved",
   "theorems": [
    "Verif.Props.C83_run",
    "Verif.Props.C83_isolated",
    "Verif.Props.C83_linear"
   ],
   "note": "C83_run is the iterates, C83_isolated the failure, C83_linear the rate."
  },
  {
   "property": "C84",
   "status": "proved",
   "theorems": [
    "Verif.Props.C84_rest_is_kept",
    "Verif.Props.C84_rest_forever",
    "Verif.Props.C84_rest_exists",
    "Verif.Props.C84_rest_is_optimal",
    "Verif.Props.C84_still_is_rest"
   ],
   "note": "AdmmRest is the specification."
  },
  {
   "property": "C85",
   "status": "proved",
   "theorems": [
    "Verif.Props.C85_run",
    "Verif.Props.C85_vr_whole_batch",
    "Verif.Props.C85_rest_is_kept",
    "Verif.Props.C85_rest_is_optimal",
    "Verif.Props.C85_rest_exists",
    "Verif.Props.C85_still_is_rest"
   ],
   "note": "LtRest and localTraining are the specification."
  },
  {
   "property": "C86",
   "status": "proved",
   "theorems": [
    "Verif.Props.C86_run",
    "Verif.Props.C86_not_docstring",
    "Verif.Props.C86_isolated",
    "Verif.Props.C86_still_is_optimal"
   ],
   "note": "C86_not_docstring is a refutation of the docstring's formula."
  },
  {
   "property": "C87",
   "status": "proved",
   "theorems": [
    "Verif.Props.C87_gt_vr_always_snapshot",
    "Verif.Props.C87_saga_fresh",
    "Verif.Props.C87_saga_first",
    "Verif.Props.C87_lt_one_step",
    "Verif.Props.C87_sarah",
    "Verif.Props.C87_saga_unbiased",
    "Verif.Props.C87_gt_vr_unbiased",
    "Verif.Props.C87_lt_unbiased",
    "Verif.Props.C87_inside_epoch_determined",
    "Verif.Props.C87_saga_rows",
    "Verif.Props.C87_saga_refresh",
    "Verif.Props.C87_lt_refresh"
   ],
   "note": "SampleMeans, EpochStart, digingDoc are the specification. Conditional unbiasedness inside an epoch does not hold in the code: batches are determined there (C87_inside_epoch_determined)."
  },
  {
   "property": "C88",
   "status": "proved",
   "theorems": [
    "Verif.Props.C88_clients",
    "Verif.Props.C88_centres",
    "Verif.Props.C88_silence",
    "Verif.Props.C88_ideal_run",
    "Verif.Props.C88_server_extrapolates"
   ],
   "note": "PdIdeal, augSteps, pdDoc are the specification of ideal runs."
  },
  {
   "property": "C89",
   "status": "proved",
   "theorems": [
    "Verif.Props.C89_rest_is_optimal",
    "Verif.Props.C89_optimal_rests",
    "Verif.Props.C89_linear"
   ],
   "note": "ClientsSmooth and BestForClients are the specification. The rate is proved for num_local_steps = 1; no claim is made about the rate with more local steps."
  },
  {
   "property": "C90",
   "status": "proved",
   "theorems": [
    "Verif.Props.C90_fedprox_ideal_run",
    "Verif.Props.C90_fedprox_converges",
    "Verif.Props.C90_one_step_exact",
    "Verif.Props.C90_shared_minimiser",
    "Verif.Props.C90_fedavg_converges",
    "Verif.Props.C90_more_steps_biased"
   ],
   "note": "meanProx/proxSteps are the documented recursion (specification). Client selection none (all active clients); under partial participation only the round-level claims C29-C31 apply."
  },
  {
   "property": "C91",
   "status": "proved",
   "theorems": [
    "Verif.Props.C91_scaffold_rest",
    "Verif.Props.C91_scaffold_stops_at_optimum",
    "Verif.Props.C91_scaffold_optimum_rests",
    "Verif.Props.C91_scaffold_one_step",
    "Verif.Props.C91_scaffold_converges",
    "Verif.Props.C91_lost_upload_biases"
   ],
   "note": "Convergence is proved for num_local_steps = 1; for more local steps only the characterisation of resting states."
  },
  {
   "property": "C92",
   "status": "proved",
   "theorems": [
    "Verif.Props.C92_feddyn_rest",
    "Verif.Props.C92_feddyn_stops_at_optimum",
    "Verif.Props.C92_feddyn_optimum_rests",
    "Verif.Props.C92_feddyn_one_step",
    "Verif.Props.C92_feddyn_converges",
    "Verif.Props.C92_lost_upload_biases"
   ],
   "note": "Convergence is proved for num_local_steps = 1 and alpha = 1/(2 step_size); the one-step recursion is proved for every alpha."
  },
  {
   "property": "C93",
   "status": "proved",
   "theorems": [
    "Verif.Props.C93_fedlt_stops_at_optimum",
    "Verif.Props.C93_fedlt_optimum_rests"
   ],
   "note": "ProxOf states the optimality condition of the proximal. nesterov/adam local solvers are not covered by the resting-state claim."
  },
  {
   "property": "C94",
   "status": "proved",
   "theorems": [
    "Verif.Props.C94_isolated",
    "Verif.Props.C94_completes",
    "Verif.Props.C94_raises",
    "Verif.Props.C94_setup_raises",
    "Verif.Props.C94_published",
    "Verif.Props.C94_zero_interval",
    "Verif.Props.C94_no_queue"
   ],
   "note": "Metrics that do disturb a trial (mini-batch costs) are C50. RuntimeMetric.update_plot's no_count is C04/C50_counters."
  },
  {
   "property": "C95",
   "status": "proved",
   "theorems": [
    "Verif.Props.C95_regret",
    "Verif.Props.C95_regret_unknown",
    "Verif.Props.C95_regret_frozen",
    "Verif.Props.C95_regret_consensus",
    "Verif.Props.C95_regret_below",
    "Verif.Props.C95_regret_negative",
    "Verif.Props.C95_loss",
    "Verif.Props.C95_gradient_norm",
    "Verif.Props.C95_gradient_norm_at_solution",
    "Verif.Props.C95_consensus_error"
   ],
   "note": "Exact real arithmetic."
  },
  {
   "property": "C96",
   "status": "proved",
   "theorems": [
    "Verif.Props.C96_lines",
    "Verif.Props.C96_interleaving",
    "Verif.Props.C96_trials_interleave",
    "Verif.Props.C96_trial_stream",
    "Verif.Props.C96_figures",
    "Verif.Props.C96_saved",
    "Verif.Props.C96_colors",
    "Verif.Props.C96_looks"
   ],
   "note": "Two metric objects of one class share a figure and, within a trial, a line (example in the file). Drawing by matplotlib, timeouts and forced termination are not modelled: the messages are those the process takes from the queue."
  },
  {
   "property": "C97",
   "status": "proved",
   "theorems": [
    "Verif.Props.C97_construct",
    "Verif.Props.C97_aligned",
    "Verif.Props.C97_selected",
    "Verif.Props.C97_errors",
    "Verif.Props.C97_epochs",
    "Verif.Props.C97_epoch_complete",
    "Verif.Props.C97_leftover",
    "Verif.Props.C97_loader",
    "Verif.Props.C97_pickle_invisible"
   ],
   "note": "Data set as a list; torch.randperm and the loader's sampler as permutations of an abstract generator."
  },
  {
   "property": "C98",
   "status": "proved",
   "theorems": [
    "Verif.Props.C98_parameters",
    "Verif.Props.C98_function",
    "Verif.Props.C98_gradient",
    "Verif.Props.C98_per_sample",
    "Verif.Props.C98_max_batch_size_irrelevant",
    "Verif.Props.C98_gradient_is_slope",
    "Verif.Props.C98_bad_max_batch_size",
    "Verif.Props.C98_sum_reduction",
    "Verif.Props.C98_predict"
   ],
   "note": "Exact real arithmetic; dropout, buffers, train/eval switching and compilation not modelled."
  },
  {
   "property": "C99",
   "status": "proved",
   "theorems": [
    "Verif.Props.C99_training",
    "Verif.Props.C99_when",
    "Verif.Props.C99_gradient_descent",
    "Verif.Props.C99_max_batch_size_matters",
    "Verif.Props.C99_one_parameter",
    "Verif.Props.C99_bad_regularization"
   ],
   "note": "The effect of the scheduler on the optimizer is not modelled."
  },
  {
   "property": "C100",
   "status": "proved",
   "theorems": [
    "Verif.Props.C100_same_framework",
    "Verif.Props.C100_array_number",
    "Verif.Props.C100_number_array",
    "Verif.Props.C100_two_frameworks",
    "Verif.Props.C100_numpy_first_unchecked",
    "Verif.Props.C100_maximum_two_frameworks",
    "Verif.Props.C100_numbers_refused",
    "Verif.Props.C100_wrapper_transparent",
    "Verif.Props.C100_stack"
   ],
   "note": "The frameworks' own numerics are a parameter Lib; EntryWise names the law used."
  },
  {
   "property": "C101",
   "status": "proved",
   "theorems": [
    "Verif.Props.C101_only_targets_change",
    "Verif.Props.C101_copy_independent",
    "Verif.Props.C101_inplace_seen_by_all",
    "Verif.Props.C101_inplace_immutable",
    "Verif.Props.C101_result_independent"
   ],
   "note": "Views are index lists into a buffer."
  },
  {
   "property": "C102",
   "status": "proved",
   "theorems": [
    "Verif.Props.C102_same_entries",
    "Verif.Props.C102_reported",
    "Verif.Props.C102_ignored_requests",
    "Verif.Props.C102_float64_becomes_float32",
    "Verif.Props.C102_shares_memory",
    "Verif.Props.C102_copies",
    "Verif.Props.C102_dtype_honoured",
    "Verif.Props.C102_like",
    "Verif.Props.C102_refusals",
    "Verif.Props.C102_round_trip"
   ],
   "note": "Casting to a dtype is a parameter; only the identity of casting stored values is assumed where stated."
  },
  {
   "property": "C103",
   "status": "proved",
   "theorems": [
    "Verif.Props.C103_arguments",
    "Verif.Props.C103_needs_x",
    "Verif.Props.C103_builtin_results_stay",
    "Verif.Props.C103_builtin_framework_of_cost",
    "Verif.Props.C103_converted_when_not_postponed"
   ],
   "note": "Method bodies are arbitrary functions on values and the heap."
  },
  {
   "property": "C104",
   "status": "proved",
   "theorems": [
    "Verif.Props.C104_aug_dgm",
    "Verif.Props.C104_atc_tracking",
    "Verif.Props.C104_sarah",
    "Verif.Props.C104_gt_vr",
    "Verif.Props.C104_gt_saga",
    "Verif.Props.C104_kgt",
    "Verif.Props.C104_default"
   ],
   "note": "Stochastic mini-batches are covered only where they are whole batches; the threshold is existential."
  },
  {
   "property": "C105",
   "status": "proved",
   "theorems": [
    "Verif.Props.C105_wang_elia",
    "Verif.Props.C105_led_recursion",
    "Verif.Props.C105_led",
    "Verif.Props.C105_default",
    "Verif.Props.C105_led_diverges"
   ],
   "note": "Threshold existential; the counterexample uses user parameters tau=1, beta=1, not the defaults."
  },
  {
   "property": "C106",
   "status": "proved",
   "theorems": [
    "Verif.Props.C106_recursion",
    "Verif.Props.C106_expected",
    "Verif.Props.C106_probability",
    "Verif.Props.C106_always",
    "Verif.Props.C106_skip_sends_nothing"
   ],
   "note": "Exact gradients; the flips are a tape that nothing else reads (random.random used by nothing else in the run)."
  },
  {
   "property": "C107",
   "status": "proved",
   "theorems": [
    "Verif.Props.C107_simple_gt",
    "Verif.Props.C107_ed",
    "Verif.Props.C107_nids",
    "Verif.Props.C107_extra",
    "Verif.Props.C107_wang_elia",
    "Verif.Props.C107_aug_dgm",
    "Verif.Props.C107_atc_tracking",
    "Verif.Props.C107_dgd",
    "Verif.Props.C107_led",
    "Verif.Props.C107_kgt"
   ],
   "note": "Exact gradients; existence of the limit is a hypothesis (it fails for large steps). LED/K-GT need convergence of the dual variables too."
  },
  {
   "property": "C108",
   "status": "proved",
   "theorems": [
    "Verif.Props.C108_crash_resume",
    "Verif.Props.C108_available",
    "Verif.Props.C108_returned",
    "Verif.Props.C108_isolated",
    "Verif.Props.C108_done_kept",
    "Verif.Props.C108_completed_query",
    "Verif.Props.C108_completed_after",
    "Verif.Props.C108_init_window",
    "Verif.Props.C108_metadata_window",
    "Verif.Props.C108_plan"
   ],
   "note": "Iterations increased by a recorded resumption are outside History here (per trial in C39; C108_plan links the two). Trials that raise while reading files cannot occur in these histories (C108_available)."
  },
  {
   "property": "C109",
   "status": "proved",
   "theorems": [
    "Verif.Props.C109_round_trip",
    "Verif.Props.C109_rebuilt",
    "Verif.Props.C109_plots_only_refuted",
    "Verif.Props.C109_added_trials",
    "Verif.Props.C109_marker",
    "Verif.Props.C109_stale_marker_refuted",
    "Verif.Props.C109_kill",
    "Verif.Props.C109_stale_metrics",
    "Verif.Props.C109_loaded"
   ],
   "note": "Computation of the frames themselves is a parameter here (C56-C64)."
  },
  {
   "property": "C110",
   "status": "proved",
   "theorems": [
    "Verif.Props.C110_quadratic",
    "Verif.Props.C110_quadratic_empty",
    "Verif.Props.C110_regression",
    "Verif.Props.C110_regression_refused",
    "Verif.Props.C110_classification",
    "Verif.Props.C110_classification_refused",
    "Verif.Props.C110_classification_scarce",
    "Verif.Props.C110_one_class_refuted",
    "Verif.Props.C110_same_seed",
    "Verif.Props.C110_test_is_training",
    "Verif.Props.C110_test_is_training_classification"
   ],
   "note": "PyTorch variants not modelled; single-agent regression is outside the optimality theorem (its solver runs on mini-batch gradients when batch_size < 10)."
  },
  {
   "property": "C111",
   "status": "proved",
   "theorems": [
    "Verif.Props.C111_run",
    "Verif.Props.C111_every_run",
    "Verif.Props.C111_mean_square",
    "Verif.Props.C111_random_activation"
   ],
   "note": "expectation = tapeMean, the recursion over independent outcomes; outcomes are tied to the run through active_agents() and messages() (Followed), and C111_random_activation discharges this for an activity table in the oracle state"
  },
  {
   "property": "C112",
   "status": "proved",
   "theorems": [
    "Verif.Props.C112_round",
    "Verif.Props.C112_run",
    "Verif.Props.C112_unbiased",
    "Verif.Props.C112_converges",
    "Verif.Props.C112_uniform_fair",
    "Verif.Props.C112_uniform_selection",
    "Verif.Props.C112_fedavg"
   ],
   "note": "expectation = finite sums over outcomes of one draw and tapeMean over independent draws; random.sample is a parameter with its documented contract (UniformSample); real arithmetic"
  },
  {
   "property": "C113",
   "status": "proved",
   "theorems": [
    "Verif.Props.C113_accepts",
    "Verif.Props.C113_errors",
    "Verif.Props.C113_annotated",
    "Verif.Props.C113_numbers",
    "Verif.Props.C113_integer_step_refuted",
    "Verif.Props.C113_not_finite",
    "Verif.Props.C113_iterations",
    "Verif.Props.C113_local_steps",
    "Verif.Props.C113_steps_of_clients",
    "Verif.Props.C113_solver"
   ],
   "note": "values that are not numbers are one constructor (comparisons raise TypeError); x0, names and selection schemes are not constructor-checked in the code"
  },
  {
   "property": "C114",
   "status": "proved",
   "theorems": [
    "Verif.Props.C114_same_network",
    "Verif.Props.C114_other_network_refuted",
    "Verif.Props.C114_fresh_every_time"
   ],
   "note": "only x0 is tracked; z0, c0 and the resolved num_local_steps are stored the same way (the latter is in C113)"
  },
  {
   "property": "C115",
   "status": "proved",
   "theorems": [
    "Verif.Props.C115_cells",
    "Verif.Props.C115_effects",
    "Verif.Props.C115_no_data",
    "Verif.Props.C115_result_kept",
    "Verif.Props.C115_again",
    "Verif.Props.C115_aggregated",
    "Verif.Props.C115_displayed",
    "Verif.Props.C115_nan_hint_refuted",
    "Verif.Props.C115_same_description_fails"
   ],
   "note": "Number formatting, to_string and to_latex are parameters; validity of a format string does not depend on the number. Creating the directory and failing writes are not modelled."
  },
  {
   "property": "C116",
   "status": "proved",
   "theorems": [
    "Verif.Props.C116_history",
    "Verif.Props.C116_settled",
    "Verif.Props.C116_returned",
    "Verif.Props.C116_parallel",
    "Verif.Props.C116_first_level",
    "Verif.Props.C116_later_level_refuted",
    "Verif.Props.C116_silent_after_parallel_refuted",
    "Verif.Props.C116_after_failure"
   ],
   "note": "Handlers' text layout, a dead manager process and changes the user makes to the root logger are not modelled."
  },
  {
   "property": "C117",
   "status": "proved",
   "theorems": [
    "Verif.Props.C117_kaggle_construct",
    "Verif.Props.C117_kaggle_data",
    "Verif.Props.C117_kaggle_missing_column_refuted",
    "Verif.Props.C117_kaggle_labels",
    "Verif.Props.C117_kaggle_label_is_target",
    "Verif.Props.C117_kaggle_split",
    "Verif.Props.C117_torch_labels",
    "Verif.Props.C117_torch_transform_refuted",
    "Verif.Props.C117_torch_split",
    "Verif.Props.C117_same_class",
    "Verif.Props.C117_missing_labels_refuted",
    "Verif.Props.C117_partition_then_split",
    "Verif.Props.C117_torch_wrong_length"
   ],
   "note": "The download, the array frameworks and random transforms are not modelled; label arrays of mixed kind (which numpy turns into strings) are not modelled; a repeated name of the label column takes its first column."
  },
  {
   "property": "C118",
   "status": "proved",
   "theorems": [
    "Verif.Props.C118_dlm_recursion",
    "Verif.Props.C118_dinno_recursion",
    "Verif.Props.C118_dlm_linear",
    "Verif.Props.C118_dinno_linear",
    "Verif.Props.C118_dinno_rests",
    "Verif.Props.C118_triangle_inplace",
    "Verif.Props.C118_triangle_misses"
   ],
   "note": "DiNNO with more than one local step: resting states only, no rate. The triangle claim is about the in-place model of C27."
  },
  {
   "property": "C119",
   "status": "proved",
   "theorems": [
    "Verif.Props.C119_shapes",
    "Verif.Props.C119_parameters",
    "Verif.Props.C119_names",
    "Verif.Props.C119_affine",
    "Verif.Props.C119_range",
    "Verif.Props.C119_gradient",
    "Verif.Props.C119_constant",
    "Verif.Props.C119_gradient_stays",
    "Verif.Props.C119_torch_gradient",
    "Verif.Props.C119_subspace",
    "Verif.Props.C119_default_start",
    "Verif.Props.C119_default_start_fedavg",
    "Verif.Props.C119_argmax",
    "Verif.Props.C119_two_class",
    "Verif.Props.C119_classification_shift",
    "Verif.Props.C119_symmetric_gradient",
    "Verif.Props.C119_symmetric_value",
    "Verif.Props.C119_symmetric_runs"
   ],
   "note": "Exact arithmetic; runs without losses, compression and noise. Equal hidden units: one hidden layer."
  },
  {
   "property": "C120",
   "status": "proved",
   "theorems": [
    "Verif.Props.C120_names",
    "Verif.Props.C120_numbers",
    "Verif.Props.C120_histories",
    "Verif.Props.C120_crash_resume",
    "Verif.Props.C120_newest",
    "Verif.Props.C120_legacy_load",
    "Verif.Props.C120_legacy_refuted",
    "Verif.Props.C120_legacy_completes",
    "Verif.Props.C120_stray_save",
    "Verif.Props.C120_stray_session",
    "Verif.Props.C120_started",
    "Verif.Props.C120_formats"
   ],
   "note": "ASCII digits; natural iteration numbers. C120_legacy_refuted is a defect: keep_n_checkpoints=1 on a directory of an older version."
  },
  {
   "property": "C121",
   "status": "proved",
   "theorems": [
    "Verif.Props.C121_normal",
    "Verif.Props.C121_uniform",
    "Verif.Props.C121_torch",
    "Verif.Props.C121_federated",
    "Verif.Props.C121_all_same",
    "Verif.Props.C121_shared_model",
    "Verif.Props.C121_after_evaluation",
    "Verif.Props.C121_wrong_size",
    "Verif.Props.C121_fedavg_server_only"
   ],
   "note": "Framework conversion is the identity. C121_federated is a defect of pytorch_initialization on default federated networks."
  },
  {
   "property": "C122",
   "status": "proved",
   "theorems": [
    "Verif.Props.C122_round",
    "Verif.Props.C122_run",
    "Verif.Props.C122_enough_steps",
    "Verif.Props.C122_sampled",
    "Verif.Props.C122_uniform_selection",
    "Verif.Props.C122_converges",
    "Verif.Props.C122_default_server",
    "Verif.Props.C122_diverges"
   ],
   "note": "Lossless, exact messages. EnoughSteps is sufficient, not claimed necessary. The nesterov and adam local solvers are not covered."
  },
  {
   "property": "C123",
   "status": "proved",
   "theorems": [
    "Verif.Props.C123_markov",
    "Verif.Props.C123_markov_long_run",
    "Verif.Props.C123_gilbert_elliott",
    "Verif.Props.C123_gilbert_elliott_half",
    "Verif.Props.C123_gilbert_elliott_long_run",
    "Verif.Props.C123_poisson",
    "Verif.Props.C123_poisson_almost_surely",
    "Verif.Props.C123_bernoulli_almost_surely"
   ],
   "note": "Each scheme reads its own tape; in the program the schemes share one generator (independent draws either way). exists_uniform shows that such draws exist."
  },
  {
   "property": "C124",
   "status": "proved",
   "theorems": [
    "Verif.Props.C124_round",
    "Verif.Props.C124_run",
    "Verif.Props.C124_fedavg",
    "Verif.Props.C124_converges",
    "Verif.Props.C124_heard",
    "Verif.Props.C124_quantization",
    "Verif.Props.C124_stochastic_quantization",
    "Verif.Props.C124_topk",
    "Verif.Props.C124_lost_clients_bias"
   ],
   "note": "Unbounded (Gaussian) noise is not covered; K >= 1 and (1+rho)^2 r < 1 are required."
  },
  {
   "property": "C125",
   "status": "proved",
   "theorems": [
    "Verif.Props.C125_dgd_bounded",
    "Verif.Props.C125_dgd_rate",
    "Verif.Props.C125_no_loss",
    "Verif.Props.C125_atc_no_loss",
    "Verif.Props.C125_neighbour_weight",
    "Verif.Props.C125_own_weight",
    "Verif.Props.C125_dgd_isolated",
    "Verif.Props.C125_atc_bounded",
    "Verif.Props.C125_atc_rate"
   ],
   "note": "Unbounded (Gaussian) noise is not covered. The rate statements assume all agents active; the bound (1) does not."
  },
  {
   "property": "C126",
   "status": "proved",
   "theorems": [
    "Verif.Props.C126_total",
    "Verif.Props.C126_duplicates",
    "Verif.Props.C126_algorithms",
    "Verif.Props.C126_metrics",
    "Verif.Props.C126_nothing_reached",
    "Verif.Props.C126_iterations",
    "Verif.Props.C126_iterations_refuted",
    "Verif.Props.C126_update",
    "Verif.Props.C126_without_views",
    "Verif.Props.C126_empty_table_hides_plots"
   ],
   "note": "C126_iterations_refuted: the documentation of iterations is false without plot metrics. Metric objects are assumed to be told apart by identity, iterations below 2^32 (the frame column is uint32)."
  },
  {
   "property": "C127",
   "status": "proved",
   "theorems": [
    "Verif.Props.C127_round",
    "Verif.Props.C127_run",
    "Verif.Props.C127_unbiased",
    "Verif.Props.C127_converges",
    "Verif.Props.C127_fedavg_one_step",
    "Verif.Props.C127_independent",
    "Verif.Props.C127_activity",
    "Verif.Props.C127_random_activity"
   ],
   "note": "Losses that hit some clients more often are not covered here; C124 bounds their effect and shows that it can be a permanent bias. Distorted messages are covered by C124."
  },
  {
   "property": "C128",
   "status": "proved",
   "theorems": [
    "Verif.Props.C128_graphs",
    "Verif.Props.C128_p2p",
    "Verif.Props.C128_wellformed",
    "Verif.Props.C128_default_weights",
    "Verif.Props.C128_degrees",
    "Verif.Props.C128_connected",
    "Verif.Props.C128_edges",
    "Verif.Props.C128_adjacency",
    "Verif.Props.C128_star",
    "Verif.Props.C128_set_weights",
    "Verif.Props.C128_weights_history",
    "Verif.Props.C128_weights_stay",
    "Verif.Props.C128_adjacency_refuted"
   ],
   "note": "networkx (relabel_nodes, star_graph, is_connected, edges, to_numpy_array) is modelled by its documented behaviour. Mutating the graph after construction is outside, except that the weights matrix is fixed when first read."
  },
  {
   "property": "C129",
   "status": "proved",
   "theorems": [
    "Verif.Props.C129_round",
    "Verif.Props.C129_converges",
    "Verif.Props.C129_optimum",
    "Verif.Props.C129_exact",
    "Verif.Props.C129_small_steps",
    "Verif.Props.C129_shared_round",
    "Verif.Props.C129_shared_run",
    "Verif.Props.C129_other_objective_than_fedavg"
   ],
   "note": "Full gradients of every client (no mini-batches); momentum, proximal term and server momentum are outside this rate (C31 covers their documented updates). Sample counts are parameters, as returned by infer_client_data_size."
  },
  {
   "property": "C130",
   "status": "proved",
   "theorems": [
    "Verif.Props.C130_agents",
    "Verif.Props.C130_view",
    "Verif.Props.C130_live",
    "Verif.Props.C130_settled",
    "Verif.Props.C130_p2p",
    "Verif.Props.C130_fed",
    "Verif.Props.C130_other",
    "Verif.Props.C130_outsider",
    "Verif.Props.C130_iterations",
    "Verif.Props.C130_cached",
    "Verif.Props.C130_mean_looks",
    "Verif.Props.C130_predictions_look",
    "Verif.Props.C130_same_mean",
    "Verif.Props.C130_immutable_refuted",
    "Verif.Props.C130_cached_refuted"
   ],
   "note": "The cost object shared between agent and view is not part of the model of a view (counting of calls is C04). networkx relabelling and copying are modelled by their documented behaviour. The least-recently-used order of evictions is not modelled: any eviction is allowed."
  },
  {
   "property": "C131",
   "status": "proved",
   "theorems": [
    "Verif.Props.C131_fedadagrad",
    "Verif.Props.C131_fedadam",
    "Verif.Props.C131_fedyogi",
    "Verif.Props.C131_fedadam_refuted",
    "Verif.Props.C131_fedadagrad_tight"
   ],
   "note": "Real arithmetic, element by element. As in C34, the server is assumed to be reachable (ServerUp)."
  },
  {
   "property": "C132",
   "status": "proved",
   "theorems": [
    "Verif.Props.C132_append",
    "Verif.Props.C132_history",
    "Verif.Props.C132_name_clash_refuted",
    "Verif.Props.C132_failed_append_refuted",
    "Verif.Props.C132_failed_start",
    "Verif.Props.C132_not_a_number"
   ],
   "note": "Kills and the other files of the directory are C108. Python's json is abstract; a truncated file is not valid JSON because the outer brace is unclosed. Dictionary keys are strings; keys that JSON converts are not modelled."
  },
  {
   "property": "C133",
   "status": "proved",
   "theorems": [
    "Verif.Props.C133_uninterrupted",
    "Verif.Props.C133_refused",
    "Verif.Props.C133_backup_kept",
    "Verif.Props.C133_no_loss",
    "Verif.Props.C133_append_refuted"
   ],
   "note": "The archive is one step begun / complete; shutil.make_archive and zip are assumed faithful. Only metadata.json is modelled of the directory here: it is the only file resume rewrites before trials run (completion markers and trials: C37, C108). The time stamp is an input."
  },
  {
   "property": "C134",
   "status": "proved",
   "theorems": [
    "Verif.Props.C134_shares",
    "Verif.Props.C134_expected",
    "Verif.Props.C134_even_unbiased",
    "Verif.Props.C134_uneven_biased",
    "Verif.Props.C134_unbiased_iff",
    "Verif.Props.C134_run_mean"
   ],
   "note": "Generalises the unbiasedness half of C127 and shows its evenness condition cannot be dropped. Deterministic gradients; the expectation is over who is heard."
  }
 ]
}