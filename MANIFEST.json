{
 "claims": [
  {
   "property": "C01",
   "status": "proved",
   "theorems": [
    "Neorl.C01_bound_repair",
    "Neorl.C01_bounds_closed",
    "Neorl.C01_needs_order"
   ],
   "note": "ensureBounds models the three-if loop; hypothesis lb<=ub shown necessary."
  },
  {
   "property": "C02",
   "status": "proved",
   "theorems": [
    "Neorl.C02_discrete_in_bounds",
    "Neorl.C02_flip_changes",
    "Neorl.C02_vector"
   ],
   "note": "mutate_discrete and ensure_discrete, all methods and draws."
  },
  {
   "property": "C03",
   "status": "proved",
   "theorems": [
    "Neorl.C03_raises_iff",
    "Neorl.C03_nearest_int_total",
    "Neorl.C03_vector_total"
   ],
   "note": "Exact raise condition with exception class."
  },
  {
   "property": "C04",
   "status": "proved",
   "theorems": [
    "Neorl.C04_truncation",
    "Neorl.C04_nearest_iff",
    "Neorl.C04_not_nearest"
   ],
   "note": "Includes the negation: not nearest rounding."
  },
  {
   "property": "C05",
   "status": "proved",
   "theorems": [
    "Neorl.C05_encode_decode",
    "Neorl.C05_decode_encode",
    "Neorl.C05_encoded_bounds",
    "Neorl.C05_duplicate_grid"
   ],
   "note": "Python equality on values; duplicates in a grid raise."
  },
  {
   "property": "C06",
   "status": "proved",
   "theorems": [
    "Neorl.C06_check_iff",
    "Neorl.C06_check_length",
    "Neorl.C06_numpy_int_rejected"
   ],
   "note": "iff holds for Python numbers and strings; numpy integer scalars are rejected (negation theorem), surplus entries are ignored."
  },
  {
   "property": "C07",
   "status": "proved",
   "theorems": [
    "Neorl.DE.C07_feasible",
    "Neorl.DE.C07_total",
    "Neorl.DE.C07_evolute_total"
   ],
   "note": "Every point passed to the objective (initial population excepted as supplied/initialised in the space) is feasible."
  },
  {
   "property": "C08",
   "status": "proved",
   "theorems": [
    "Neorl.DE.C08_greedy",
    "Neorl.DE.C08_slots_monotone",
    "Neorl.DE.C08_best_of_all",
    "Neorl.DE.C08_sigmoid_regresses",
    "Neorl.DE.C08_trial"
   ],
   "note": "Greedy selection never worsens a slot; with sigmoid discretisation the re-evaluated vector may differ (negation recorded)."
  },
  {
   "property": "C09",
   "status": "proved",
   "theorems": [
    "Neorl.DE.C09_result_consistent",
    "Neorl.DE.C09_histories",
    "Neorl.DE.C09_last_pop"
   ],
   "note": "Returned y is the objective at returned x, evaluated during the run."
  },
  {
   "property": "C10",
   "status": "proved",
   "theorems": [
    "Neorl.ES.C10_select"
   ],
   "note": ""
  },
  {
   "property": "C11",
   "status": "proved",
   "theorems": [
    "Neorl.ES.C11_two_point",
    "Neorl.ES.C11_points"
   ],
   "note": "Raises ValueError exactly for fewer than two variables; every interval reachable."
  },
  {
   "property": "C12",
   "status": "proved",
   "theorems": [
    "Neorl.ES.C12_sum",
    "Neorl.ES.C12_range"
   ],
   "note": ""
  },
  {
   "property": "C13",
   "status": "proved",
   "theorems": [
    "Neorl.ES.C13_mutation",
    "Neorl.ES.C13_int_changes",
    "Neorl.ES.C13_run",
    "Neorl.ES.C13_blend_escapes",
    "Neorl.ES.C13_steps",
    "Neorl.ES.C13_steps_determined",
    "Neorl.ES.C13_reach",
    "Neorl.ES.C13_step_unlimited"
   ],
   "note": "Holds with clip=True (default) or two-point crossover; witness that blend with clip=False leaves the range."
  },
  {
   "property": "C14",
   "status": "proved",
   "theorems": [
    "Neorl.ES.C14_evolute",
    "Neorl.ES.C14_total",
    "Neorl.ES.C14_start_lost",
    "Neorl.ES.C14_rl_mismatch"
   ],
   "note": "For RL mode with fewer RL vectors than survivors; with as many the returned pair mismatches (witness). The initial population is not counted (witness)."
  },
  {
   "property": "C15",
   "status": "proved",
   "theorems": [
    "Neorl.PSO.C15_evolute",
    "Neorl.PSO.C15_memory",
    "Neorl.PSO.C15_total",
    "Neorl.PSO.C15_history_misses_start",
    "Neorl.PSO.C15_mixed_space_raises"
   ],
   "note": "Float-only spaces; in mixed spaces the code raises (witness)."
  },
  {
   "property": "C16",
   "status": "proved",
   "theorems": [
    "Neorl.GWO.C16_leaders",
    "Neorl.GWO.C16_leaders_midway",
    "Neorl.GWO.C16_evolute",
    "Neorl.GWO.C16_total",
    "Neorl.GWO.C16_no_generation"
   ],
   "note": "alpha, beta, delta are the three smallest distinct values seen; result, histories, counts and feasibility exact"
  },
  {
   "property": "C17",
   "status": "proved",
   "theorems": [
    "Neorl.WOA.C17_evolute",
    "Neorl.WOA.C17_total",
    "Neorl.WOA.C17_kw_a_alone_raises"
   ],
   "note": "full contract of the swarm loop; keyword a without fac raises"
  },
  {
   "property": "C18",
   "status": "proved",
   "theorems": [
    "Neorl.SSA.C18_evolute",
    "Neorl.SSA.C18_total",
    "Neorl.SSA.C18_bad_c1",
    "Neorl.SSA.C18_follower"
   ],
   "note": "full contract, follower midpoint rule"
  },
  {
   "property": "C19",
   "status": "proved",
   "theorems": [
    "Neorl.BAT.C19_evolute",
    "Neorl.BAT.C19_loudness",
    "Neorl.BAT.C19_total",
    "Neorl.BAT.C19_initial_lost"
   ],
   "note": "best over the per-generation evaluations; witness that the initial evaluation is lost"
  },
  {
   "property": "C20",
   "status": "proved",
   "theorems": [
    "Neorl.HHO.C20_evolute",
    "Neorl.HHO.C20_best_but_last_dives",
    "Neorl.HHO.C20_total",
    "Neorl.HHO.C20_last_dives_lost"
   ],
   "note": "best over start-of-generation evaluations, over everything but the last dives with nearest_int; witness of a lost dive"
  },
  {
   "property": "C21",
   "status": "proved",
   "theorems": [
    "Neorl.JAYA.C21_evolute",
    "Neorl.JAYA.C21_rows",
    "Neorl.JAYA.C21_worst_frozen",
    "Neorl.JAYA.C21_total",
    "Neorl.JAYA.C21_worst_not_worst"
   ],
   "note": "Greedy acceptance, exact histories, feasibility and counts; the worst individual is frozen at the initial one (documented deviation, with a witness)."
  },
  {
   "property": "C22",
   "status": "proved",
   "theorems": [
    "Neorl.MFO.C22_flame_count",
    "Neorl.MFO.C22_flames",
    "Neorl.MFO.C22_evolute",
    "Neorl.MFO.C22_total",
    "Neorl.MFO.C22_local_lags"
   ],
   "note": "Flame count schedule, flames are the best of the previous population and flames, returned best; the recorded local history lags by one population."
  },
  {
   "property": "C23",
   "status": "proved",
   "theorems": [
    "Neorl.CS.C23_evolute",
    "Neorl.CS.C23_integer_space",
    "Neorl.CS.C23_total",
    "Neorl.CS.C23_out_of_box"
   ],
   "note": "Returned nest is the best nest and its own fitness; nests may leave the box in some branch (witness)."
  },
  {
   "property": "C24",
   "status": "proved",
   "theorems": [
    "Neorl.ACO.C24_evolute",
    "Neorl.ACO.C24_archive",
    "Neorl.ACO.C24_roulette",
    "Neorl.ACO.C24_weights",
    "Neorl.ACO.C24_total"
   ],
   "note": "Archive size, order, retention of better ants; roulette semantics; exp is a parameter."
  },
  {
   "property": "C25",
   "status": "proved",
   "theorems": [
    "Neorl.SA.C25_default_move",
    "Neorl.SA.C25_chain",
    "Neorl.SA.C25_ranges",
    "Neorl.SA.C25_evolute",
    "Neorl.SA.C25_feasible",
    "Neorl.SA.C25_no_generation",
    "Neorl.SA.C25_soft_index",
    "Neorl.SA.C25_soft_same_start",
    "Neorl.SA.C25_total",
    "Neorl.SA.C25_equilibrium_stale_x"
   ],
   "note": "The run theorem is for schedules that do not stop early; the early exit of the equilibrium schedule can return an individual that does not belong to the returned fitness (C25_equilibrium_stale_x). Fewer generations than cores raises UnboundLocalError."
  },
  {
   "property": "C26",
   "status": "proved",
   "theorems": [
    "Neorl.TS.C26_swap",
    "Neorl.TS.C26_swap_missing",
    "Neorl.TS.C26_moves",
    "Neorl.TS.C26_terminates",
    "Neorl.TS.C26_no_moves",
    "Neorl.TS.C26_evolute_swap",
    "Neorl.TS.C26_evolute_perturb",
    "Neorl.TS.C26_total",
    "Neorl.TS.C26_frozen",
    "Neorl.TS.C26_frozen_witness",
    "Neorl.TS.C26_no_generation",
    "Neorl.TS.C26_penalty_misses",
    "Neorl.TS.C26_cutoff_mismatch"
   ],
   "note": "Swap moves as value transpositions, enumeration of the pairs, termination and choice of the candidate loop, tenures, best visited position. Also shown: in swap mode a generation without a move freezes the search for ever; with a frequency penalty the best evaluated candidate can be missed; above the 1e11 cut-off the returned pair is inconsistent."
  },
  {
   "property": "C27",
   "status": "proved",
   "theorems": [
    "Neorl.XNES.C27_utilities",
    "Neorl.XNES.C27_evolute",
    "Neorl.XNES.C27_total",
    "Neorl.XNES.C27_second_call",
    "Neorl.XNES.C27_mu_best_never_set",
    "Neorl.XNES.C27_distribution",
    "Neorl.XNES.C27_rank_invariant",
    "Neorl.XNES.C27_no_generation",
    "Neorl.XNES.expmOK_exp"
   ],
   "note": "Utilities over the reals; runs over any ordered field with log/exp/expm/argsort/adasam as parameters (the real matrix exponential is shown to satisfy the hypothesis used). Also shown: a second call of evolute flips the sign of the earlier history in mode min; the mu_best branch is dead."
  },
  {
   "property": "C28",
   "status": "proved",
   "theorems": [
    "Neorl.ND.C28_dominance",
    "Neorl.ND.C28_order",
    "Neorl.ND.C28_sort",
    "Neorl.ND.C28_partition",
    "Neorl.ND.C28_nodup",
    "Neorl.ND.C28_front_incomparable",
    "Neorl.ND.C28_front_dominated",
    "Neorl.ND.C28_rank",
    "Neorl.ND.C28_first_front"
   ],
   "note": "Fronts are the sets of individuals of equal longest-dominator-chain length; fitness vectors of equal length."
  },
  {
   "property": "C29",
   "status": "proved",
   "theorems": [
    "Neorl.ND.C29_log_sort",
    "Neorl.ND.C29_same_fronts",
    "Neorl.ND.C29_helperA",
    "Neorl.ND.C29_helperB",
    "Neorl.ND.C29_empty"
   ],
   "note": "The divide-and-conquer sort gives the same fronts (same members) as the standard one for two or more objectives of equal length and a non-empty population. The single-objective call is not modelled (evolute switches to the standard sort)."
  },
  {
   "property": "C30",
   "status": "proved",
   "theorems": [
    "Neorl.ND.C30_select",
    "Neorl.ND.C30_elitist",
    "Neorl.ND.C30_first_front",
    "Neorl.ND.C30_crowding",
    "Neorl.ND.C30_extremes",
    "Neorl.ND.C30_edge"
   ],
   "note": "Selection of NSGA-II with either sort. Exactly min(k, n) distinct survivors, whole fronts in order, within the cut front by decreasing crowding distance; nobody kept is dominated by somebody dropped; with k at least twice the number of objectives a best individual of every objective is kept. The stronger sentence \"every dominator of a dropped individual is kept\" is false and refuted by an example in Props/Crowd.lean."
  },
  {
   "property": "C31",
   "status": "proved",
   "theorems": [
    "Neorl.ND.C31_crowding",
    "Neorl.ND.C31_nonneg",
    "Neorl.ND.C31_extremes",
    "Neorl.ND.C31_top_count"
   ],
   "note": "Distances in WithTop K; division by a zero range is avoided as in the code."
  },
  {
   "property": "C32",
   "status": "proved",
   "theorems": [
    "Neorl.ND.C32_points",
    "Neorl.ND.C32_simplex",
    "Neorl.ND.C32_scaling",
    "Neorl.ND.C32_zero"
   ],
   "note": "Number, sum, sign and distinctness of the points; scaling; division count zero."
  },
  {
   "property": "C33",
   "status": "proved",
   "theorems": [
    "Neorl.ND.C33_niching",
    "Neorl.ND.C33_too_many",
    "Neorl.ND.C33_select",
    "Neorl.ND.C33_elitist",
    "Neorl.ND.C33_niche_choice"
   ],
   "note": "The association of points to niches is an arbitrary function (its linear algebra is not modelled here); shuffles are arbitrary permutations. Also the greedy law of the niche choice."
  },
  {
   "property": "C34",
   "status": "proved",
   "theorems": [
    "Neorl.Replay.C34_fifo",
    "Neorl.Replay.C34_slots",
    "Neorl.Replay.C34_capacity_zero",
    "Neorl.Replay.C34_sample"
   ],
   "note": "Ring refined to the last `cap` submissions in order; capacity 0 raises."
  },
  {
   "property": "C35",
   "status": "proved",
   "theorems": [
    "Neorl.SegTree.C35_new",
    "Neorl.SegTree.C35_write",
    "Neorl.SegTree.C35_write_error",
    "Neorl.SegTree.C35_read",
    "Neorl.SegTree.C35_reduce",
    "Neorl.SegTree.C35_reduce_conventions",
    "Neorl.SegTree.C35_history",
    "Neorl.SegTree.C35_reduce_empty_range"
   ],
   "note": "Includes negation: empty ranges never return."
  },
  {
   "property": "C36",
   "status": "proved",
   "theorems": [
    "Neorl.SegTree.C36_prefix_search",
    "Neorl.SegTree.C36_unique",
    "Neorl.SegTree.C36_capacity_one"
   ],
   "note": "Exact arithmetic; capacity one raises (negation recorded)."
  },
  {
   "property": "C37",
   "status": "proved",
   "theorems": [
    "Neorl.PER.C37_capacity",
    "Neorl.PER.C37_history",
    "Neorl.PER.C37_add_max",
    "Neorl.PER.C37_sample",
    "Neorl.PER.C37_sample_stored",
    "Neorl.PER.C37_sample_exact",
    "Neorl.PER.C37_update",
    "Neorl.PER.C37_extend_max",
    "Neorl.PER.C37_single_element_diverges",
    "Neorl.PER.C37_full_extend_no_priority"
   ],
   "note": "C37_single_element_diverges and C37_full_extend_no_priority are defects; C37_sample gives the exact draw-to-slot map, in which the last stored slot never occurs."
  },
  {
   "property": "C38",
   "status": "proved",
   "theorems": [
    "Neorl.HER.C38_episode",
    "Neorl.HER.C38_pending",
    "Neorl.HER.C38_count",
    "Neorl.HER.C38_final_not_final_state"
   ],
   "note": "Strategy `final` uses the goal achieved before the last action (negation of the documented meaning)."
  },
  {
   "property": "C39",
   "status": "proved",
   "theorems": [
    "Neorl.ER.C39_bounded_distinct",
    "Neorl.ER.C39_add_stored",
    "Neorl.ER.C39_add_fifo",
    "Neorl.ER.C39_greedy",
    "Neorl.ER.C39_priorities",
    "Neorl.ER.C39_uniform",
    "Neorl.ER.C39_prior",
    "Neorl.ER.C39_remove_duplicates",
    "Neorl.ER.C39_greedy_then_add_loses_best",
    "Neorl.ER.C39_choice",
    "Neorl.ER.C39_seeded_total",
    "Neorl.ER.C39_same_samples",
    "Neorl.ER.C39_same_ranks"
   ],
   "note": "C39_greedy_then_add_loses_best, C39_same_samples and C39_same_ranks are defects."
  },
  {
   "property": "C40",
   "status": "proved",
   "theorems": [
    "Neorl.AEO.C40_ncr",
    "Neorl.AEO.C40_ncr_above",
    "Neorl.AEO.C40_columns",
    "Neorl.AEO.C40_entry",
    "Neorl.AEO.C40_schedules",
    "Neorl.AEO.C40_one_cycle",
    "Neorl.AEO.C40_strength",
    "Neorl.AEO.C40_export_numbers",
    "Neorl.AEO.C40_q_unchecked"
   ],
   "note": "Combination function, migration matrix columns, closed form of its entries, export/destination schedules, strengths in [0,1], export numbers always drawable for legal options; defects: one cycle divides by zero, q outside [-1,1] accepted but raises."
  },
  {
   "property": "C41",
   "status": "proved",
   "theorems": [
    "Neorl.AEO.C41_export",
    "Neorl.AEO.C41_order_none",
    "Neorl.AEO.C41_migrate",
    "Neorl.AEO.C41_migrate_total",
    "Neorl.AEO.C41_evolute",
    "Neorl.AEO.C41_out_of_range",
    "Neorl.AEO.C41_total",
    "Neorl.AEO.C41_ensemble",
    "Neorl.AEO.C41_ensemble_total",
    "Neorl.AEO.C41_example",
    "Neorl.AEO.C41_who_leaves"
   ],
   "note": "Conservation by one export, one migration and whole runs; best-of-everything return value; totality; instantiated for ensembles of the nine concrete algorithms. Defects: order=None raises, labels out of range are dropped."
  },
  {
   "property": "C42",
   "status": "proved",
   "theorems": [
    "Neorl.AEO.C42_joins",
    "Neorl.AEO.C42_ramp",
    "Neorl.AEO.C42_kwargs",
    "Neorl.AEO.C42_no_kwargs",
    "Neorl.AEO.C42_single"
   ],
   "note": "All annealed parameters of all algorithms over the whole run; single-cycle single-generation defect."
  },
  {
   "property": "C43",
   "status": "proved",
   "theorems": [
    "Neorl.AEO.C43_exact",
    "Neorl.AEO.C43_woa",
    "Neorl.AEO.C43_hho",
    "Neorl.AEO.C43_hho_not_bound"
   ],
   "note": "Exact for GWO, MFO, PSO, DE, ES, SSA, JAYA; WOA short by one population; HHO between 1 and 3 per hawk and the announced bound 2 is refuted by a witness."
  },
  {
   "property": "C44",
   "status": "proved",
   "theorems": [
    "Neorl.EDEV.C44_partition",
    "Neorl.EDEV.C44_run",
    "Neorl.EDEV.C44_total",
    "Neorl.EDEV.C44_ng_zero",
    "Neorl.EDEV.C44_reward",
    "Neorl.EDEV.C44_first_period",
    "Neorl.EDEV.C44_means_frozen",
    "Neorl.EDEV.C44_archived_values",
    "Neorl.EDEV.C44_archive_mismatch",
    "Neorl.EDEV.C44_forced_misplaced",
    "Neorl.EDEV.C44_forced_single",
    "Neorl.EDEV.C44_second_evaluation_lost",
    "Neorl.EDEV.C44_archive",
    "Neorl.EDEV.C44_gain",
    "Neorl.EDEV.C44_configure",
    "Neorl.EDEV.C44_bestmem",
    "Neorl.EDEV.C44_bestmem_start"
   ],
   "note": "Full statement C44_run with C44_partition, C44_archive, C44_reward, C44_total; the rest are defects."
  },
  {
   "property": "C45",
   "status": "proved",
   "theorems": [
    "Neorl.EDEV.C45_donors",
    "Neorl.EDEV.C45_reachable",
    "Neorl.EDEV.C45_too_small",
    "Neorl.EDEV.C45_r1r2",
    "Neorl.EDEV.C45_two_members",
    "Neorl.EDEV.C45_rates",
    "Neorl.EDEV.C45_scales",
    "Neorl.EDEV.C45_scales_first"
   ],
   "note": "Donor indices, gnR1R2, randFCR; sharpness C45_too_small, C45_two_members."
  },
  {
   "property": "C46",
   "status": "proved",
   "theorems": [
    "Neorl.Env.C46_feasible",
    "Neorl.Env.C46_episode",
    "Neorl.Env.C46_episode_regular",
    "Neorl.Env.C46_reach",
    "Neorl.Env.C46_policy_value",
    "Neorl.Env.C46_value_step",
    "Neorl.Env.C46_total",
    "Neorl.Env.C46_init",
    "Neorl.Env.C46_reset_returns_action",
    "Neorl.Env.C46_reset_outside",
    "Neorl.Env.C46_value_ignores"
   ],
   "note": "BaseEnvironment with its three action encodings. Random samples are arguments (feasible where the space sampler makes them so). Defects with witnesses: first observation outside the observation space, neat raises, float spaces refused for dqn/acer, one action in nx+1 ignored."
  },
  {
   "property": "C47",
   "status": "proved",
   "theorems": [
    "Neorl.Env.C47_action_map",
    "Neorl.Env.C47_action_map_coord",
    "Neorl.Env.C47_multidiscrete"
   ],
   "note": ""
  },
  {
   "property": "C48",
   "status": "proved",
   "theorems": [
    "Neorl.Rms.C48_statistics",
    "Neorl.Rms.C48_split_independent",
    "Neorl.Rms.C48_no_prior",
    "Neorl.Rms.C48_var_pos",
    "Neorl.Rms.C48_mean_shrinks"
   ],
   "note": "One component; numpy works componentwise. Exact arithmetic."
  },
  {
   "property": "C49",
   "status": "proved",
   "theorems": [
    "Neorl.Returns.C49_gae",
    "Neorl.Returns.C49_lambda_one",
    "Neorl.Returns.C49_lambda_zero",
    "Neorl.Returns.C49_consistent_values",
    "Neorl.Returns.C49_no_leak",
    "Neorl.Returns.C49_flatten"
   ],
   "note": "One environment column; exact arithmetic. Callback abort not modelled."
  },
  {
   "property": "C50",
   "status": "proved",
   "theorems": [
    "Neorl.Returns.C50_discount",
    "Neorl.Returns.C50_dones",
    "Neorl.Returns.C50_a2c",
    "Neorl.Returns.C50_boundaries"
   ],
   "note": "lfilter modelled by its defining recursion."
  },
  {
   "property": "C51",
   "status": "proved",
   "theorems": [
    "Neorl.Schedule.C51_interp",
    "Neorl.Schedule.C51_linear",
    "Neorl.Schedule.C51_linear_zero",
    "Neorl.Schedule.C51_piecewise",
    "Neorl.Schedule.C51_last_endpoint",
    "Neorl.Schedule.C51_unsorted",
    "Neorl.Schedule.C51_curves",
    "Neorl.Schedule.C51_double_middle_drop",
    "Neorl.Schedule.C51_scheduler"
   ],
   "note": "Includes two defects: last end point, double_middle_drop."
  },
  {
   "property": "C52",
   "status": "proved",
   "theorems": [
    "Neorl.Replay.C52_get",
    "Neorl.Replay.C52_ring",
    "Neorl.Replay.C52_has_atleast",
    "Neorl.Replay.C52_too_small"
   ],
   "note": "Requested size below one rollout makes every put raise (negation recorded)."
  },
  {
   "property": "C53",
   "status": "proved",
   "theorems": [
    "Neorl.Dataset.C53_iterate_once",
    "Neorl.Dataset.C53_reusable",
    "Neorl.Dataset.C53_resumes",
    "Neorl.Dataset.C53_next_batch_epoch",
    "Neorl.Dataset.C53_epoch",
    "Neorl.Dataset.C53_iterbatches_size",
    "Neorl.Dataset.C53_iterbatches_number",
    "Neorl.Dataset.C53_iterbatches_nothing",
    "Neorl.Dataset.C53_aligned",
    "Neorl.Dataset.C53_fresh",
    "Neorl.Dataset.C53_subset",
    "Neorl.Dataset.C53_starts_over"
   ],
   "note": "Shuffles are arbitrary permutations. Defects: an abandoned iteration shortens the next; iterbatches(num_batches, include_final_partial_batch=False) yields nothing."
  },
  {
   "property": "C54",
   "status": "proved",
   "theorems": [
    "Neorl.Latin.C54_latin",
    "Neorl.Latin.C54_refuses"
   ],
   "note": "Both copies of the function."
  },
  {
   "property": "C55",
   "status": "proved",
   "theorems": [
    "Neorl.EPSO.C55_run",
    "Neorl.EPSO.C55_memory",
    "Neorl.EPSO.C55_aliasing",
    "Neorl.EPSO.C55_strategy",
    "Neorl.EPSO.C55_rates",
    "Neorl.EPSO.C55_learning",
    "Neorl.EPSO.C55_counts",
    "Neorl.EPSO.C55_phase",
    "Neorl.EPSO.C55_limits",
    "Neorl.EPSO.C55_slope_grows",
    "Neorl.EPSO.C55_hpso_negative_bound",
    "Neorl.EPSO.C55_hpso_cap",
    "Neorl.EPSO.C55_lp_zero",
    "Neorl.EPSO.C55_g2_zero",
    "Neorl.EPSO.C55_total",
    "Neorl.EPSO.C55_ngen_zero",
    "Neorl.EPSO.C55_move",
    "Neorl.EPSO.C55_move_first",
    "Neorl.EPSO.C55_tables"
   ],
   "note": "Roulette C55_strategy/C55_rates/C55_learning/C55_counts, run C55_run/C55_memory/C55_aliasing/C55_phase/C55_limits, totality C55_total; the rest are defects."
  },
  {
   "property": "C56",
   "status": "proved",
   "theorems": [
    "Neorl.HCLPSO.C56_run",
    "Neorl.HCLPSO.C56_memory",
    "Neorl.HCLPSO.C56_monotone",
    "Neorl.HCLPSO.C56_limits",
    "Neorl.HCLPSO.C56_exemplar",
    "Neorl.HCLPSO.C56_last_not_friend",
    "Neorl.HCLPSO.C56_x0_ignored",
    "Neorl.HCLPSO.C56_limit_lost",
    "Neorl.HCLPSO.C56_total",
    "Neorl.HCLPSO.C56_ngen_zero",
    "Neorl.HCLPSO.C56_start_lost",
    "Neorl.HCLPSO.C56_coefficients",
    "Neorl.HCLPSO.C56_move",
    "Neorl.HCLPSO.C56_counter"
   ],
   "note": "Run C56_run/C56_memory/C56_monotone/C56_limits, exemplars C56_exemplar; the rest are defects."
  },
  {
   "property": "C57",
   "status": "proved",
   "theorems": [
    "Neorl.Tune.C57_grid_complete",
    "Neorl.Tune.C57_grid_once",
    "Neorl.Tune.C57_grid_order",
    "Neorl.Tune.C57_scores",
    "Neorl.Tune.C57_csv",
    "Neorl.Tune.C57_grid",
    "Neorl.Tune.C57_random",
    "Neorl.Tune.C57_random_total",
    "Neorl.Tune.C57_random_reach",
    "Neorl.Tune.C57_documented_format",
    "Neorl.Tune.C57_bayes",
    "Neorl.Tune.C57_bayes_mislabelled",
    "Neorl.Tune.C57_id_collision",
    "Neorl.Tune.C57_score_collision"
   ],
   "note": "Grid C57_grid*, table C57_scores/C57_csv, random C57_random*, Bayesian C57_bayes; C57_bayes_mislabelled, C57_id_collision, C57_score_collision, C57_documented_format are defects."
  },
  {
   "property": "C58",
   "status": "proved",
   "theorems": [
    "Neorl.TSP.C58_tsp_step",
    "Neorl.TSP.C58_tsp_obs_blank",
    "Neorl.TSP.C58_tsp_total",
    "Neorl.TSP.C58_tsp_run",
    "Neorl.TSP.C58_tsp_single",
    "Neorl.TSP.C58_tsp_reported_order",
    "Neorl.TSP.C58_tsp_long",
    "Neorl.TSP.C58_tsp_reset",
    "Neorl.TSP.C58_tsp_rows_mixed",
    "Neorl.TSP.C58_tsp_length_zero",
    "Neorl.KP.C58_kp_step",
    "Neorl.KP.C58_kp_single",
    "Neorl.KP.C58_kp_light",
    "Neorl.KP.C58_kp_total",
    "Neorl.KP.C58_kp_light_example",
    "Neorl.KP.C58_kp_reset",
    "Neorl.KP.C58_kp_columns",
    "Neorl.KP.C58_kp_no_length"
   ],
   "note": "TSP: C58_tsp_step, C58_tsp_run, C58_tsp_single, C58_tsp_total; knapsack: C58_kp_step, C58_kp_single, C58_kp_total, C58_kp_light; the others are defects."
  },
  {
   "property": "C59",
   "status": "proved",
   "theorems": [
    "Neorl.NSGA.C59_sel2_sound",
    "Neorl.NSGA.C59_sel3_sound",
    "Neorl.NSGA.C59_evolute",
    "Neorl.NSGA.C59_records",
    "Neorl.NSGA.C59_y_max",
    "Neorl.NSGA.C59_y_min_pos",
    "Neorl.NSGA.C59_y_min_neg",
    "Neorl.NSGA.C59_x",
    "Neorl.NSGA.C59_single",
    "Neorl.NSGA.C59_total",
    "Neorl.NSGA.C59_edge",
    "Neorl.NSGA.C59_not_best",
    "Neorl.NSGA.C59_min_stale"
   ],
   "note": "The main loop of NSGA-II and NSGA-III: what is reported (exactly), which part of it is right (front, records, single objective) and two defects with witnesses (the reported per-objective optimum is the worst of the front; stale in min mode for negative objectives)."
  },
  {
   "property": "C60",
   "status": "proved",
   "theorems": [
    "Neorl.C60_dict_table",
    "Neorl.C60_list_table",
    "Neorl.C60_nsga_table"
   ],
   "note": "Row labels and dataframe wrapper not modelled."
  },
  {
   "property": "C61",
   "status": "proved",
   "theorems": [
    "Neorl.Cooling.C61_fast",
    "Neorl.Cooling.C61_fast_geometric",
    "Neorl.Cooling.C61_cauchy",
    "Neorl.Cooling.C61_boltzmann",
    "Neorl.Cooling.C61_equilibrium",
    "Neorl.Cooling.C61_acceptance"
   ],
   "note": "Over the real numbers."
  },
  {
   "property": "C62",
   "status": "proved",
   "theorems": [
    "Neorl.Returns.C62_retrace",
    "Neorl.Returns.C62_fixed_point"
   ],
   "note": "One environment; batch_to_seq/seq_to_batch are reshapes."
  },
  {
   "property": "C63",
   "status": "proved",
   "theorems": [
    "Neorl.GWO.C63_gwo_schedule",
    "Neorl.GWO.C63_gwo_radius",
    "Neorl.GWO.C63_gwo_attained",
    "Neorl.GWO.C63_gwo_origin",
    "Neorl.WOA.C63_woa_schedule",
    "Neorl.WOA.C63_woa_move",
    "Neorl.WOA.C63_woa_choice",
    "Neorl.WOA.C63_woa_exploits",
    "Neorl.WOA.C63_woa_branches",
    "Neorl.HHO.C63_hho_schedule",
    "Neorl.HHO.C63_hho_move",
    "Neorl.HHO.C63_hho_dive",
    "Neorl.HHO.C63_hho_explore"
   ],
   "note": "Schedules, movement and reach for each method. C63_gwo_origin is a defect."
  },
  {
   "property": "C64",
   "status": "proved",
   "theorems": [
    "Neorl.PSO.C64_pso_weight",
    "Neorl.PSO.C64_pso_keyword_late",
    "Neorl.PSO.C64_pso_move",
    "Neorl.PSO.C64_pso_globw",
    "Neorl.PSO.C64_pso_globw_unbounded",
    "Neorl.SSA.C64_ssa_move",
    "Neorl.SSA.C64_ssa_far_box",
    "Neorl.SSA.C64_ssa_coefficient",
    "Neorl.JAYA.C64_jaya_move",
    "Neorl.JAYA.C64_jaya_fixed"
   ],
   "note": "C64_pso_keyword_late, C64_pso_globw_unbounded and C64_ssa_far_box are defects."
  },
  {
   "property": "C65",
   "status": "proved",
   "theorems": [
    "Neorl.CS.C65_cs_move",
    "Neorl.CS.C65_cs_best_rests",
    "Neorl.CS.C65_cs_pa_keeps",
    "Neorl.BAT.C65_bat_move",
    "Neorl.BAT.C65_bat_jump_lost",
    "Neorl.ACO.C65_aco_move",
    "Neorl.ACO.C65_aco_collapse"
   ],
   "note": "C65_cs_pa_keeps and C65_bat_jump_lost are defects."
  },
  {
   "property": "C66",
   "status": "proved",
   "theorems": [
    "Neorl.PESA.C66_best",
    "Neorl.PESA.C66_default_memory",
    "Neorl.PESA.C66_attained",
    "Neorl.PESA.C66_second_call",
    "Neorl.PESA.C66_default_memory_loses",
    "Neorl.PESA.C66_warmup_strict"
   ],
   "note": "C66_default_memory_loses, C66_second_call and C66_warmup_strict are defects."
  },
  {
   "property": "C67",
   "status": "proved",
   "theorems": [
    "Neorl.PESA.C67_chain",
    "Neorl.PESA.C67_steps",
    "Neorl.PESA.C67_alpha",
    "Neorl.PESA.C67_populations",
    "Neorl.PESA.C67_timew",
    "Neorl.PESA.C67_total",
    "Neorl.PESA.C67_not_divisible",
    "Neorl.PESA.C67_swarm_move",
    "Neorl.PESA.C67_fresh_particles"
   ],
   "note": "C67_not_divisible and C67_timew record defects."
  },
  {
   "property": "C68",
   "status": "proved",
   "theorems": [
    "Neorl.PESA2.C68_best",
    "Neorl.PESA2.C68_attained",
    "Neorl.PESA2.C68_best_of_all",
    "Neorl.PESA2.C68_default_memory",
    "Neorl.PESA2.C68_no_survivors",
    "Neorl.PESA2.C68_second_call",
    "Neorl.PESA2.C68_wolves_whales",
    "Neorl.PESA2.C68_total",
    "Neorl.PESA2.C68_too_many_wolves",
    "Neorl.PESA2.C68_no_generation",
    "Neorl.PESA2.C68_loses"
   ],
   "note": "C68_no_survivors, C68_second_call, C68_loses, C68_too_many_wolves and C68_no_generation are defects."
  },
  {
   "property": "C69",
   "status": "proved",
   "theorems": [
    "Neorl.PESA2.C69_starts",
    "Neorl.PESA2.C69_gwo_idle",
    "Neorl.PESA2.C69_next",
    "Neorl.PESA2.C69_alpha",
    "Neorl.PESA2.C69_shared_unchanged",
    "Neorl.PESA2.C69_shared_corrupted"
   ],
   "note": "C69_gwo_idle, the last part of C69_next and C69_shared_corrupted are defects."
  },
  {
   "property": "C70",
   "status": "proved",
   "theorems": [
    "Neorl.NHHO.C70_returned",
    "Neorl.NHHO.C70_surrogate",
    "Neorl.NHHO.C70_evaluations",
    "Neorl.NHHO.C70_total"
   ],
   "note": "Minimisation; the networks are parameters of the model, so the theorems hold for every learner."
  },
  {
   "property": "C71",
   "status": "proved",
   "theorems": [
    "Neorl.NHHO.C71_max_returns_worst",
    "Neorl.NHHO.C71_dives_minimise",
    "Neorl.NHHO.C71_scaled",
    "Neorl.NHHO.C71_default_params",
    "Neorl.NHHO.C71_default_warmups",
    "Neorl.NHHO.C71_max_witness"
   ],
   "note": "All are defects; C71_max_witness is a concrete run."
  },
  {
   "property": "C72",
   "status": "proved",
   "theorems": [
    "Neorl.NGA.C72_returned",
    "Neorl.NGA.C72_surrogate",
    "Neorl.NGA.C72_evaluations",
    "Neorl.NGA.C72_population",
    "Neorl.NGA.C72_total",
    "Neorl.NGA.C72_default_hidden",
    "Neorl.NGA.C72_total_default",
    "Neorl.NGA.C72_warmups"
   ],
   "note": "KMeans, the pseudo-inverse, the kernel and the norm are parameters of the model."
  },
  {
   "property": "C73",
   "status": "proved",
   "theorems": [
    "Neorl.NGA.C73_crossover",
    "Neorl.NGA.C73_crossover_equal",
    "Neorl.NGA.C73_mutation"
   ],
   "note": "For every non-negative root x ** (1 / n); the real power function is shown to be one."
  },
  {
   "property": "C74",
   "status": "proved",
   "theorems": [
    "Neorl.NGA.C74_one_hidden",
    "Neorl.NGA.C74_not_integer",
    "Neorl.NGA.C74_one_individual"
   ],
   "note": "All are defects."
  },
  {
   "property": "C75",
   "status": "proved",
   "theorems": [
    "Neorl.Logger.C75_history",
    "Neorl.Logger.C75_best",
    "Neorl.Logger.C75_saving",
    "Neorl.Logger.C75_mode",
    "Neorl.Logger.C75_total",
    "Neorl.Logger.C75_first_env_only",
    "Neorl.Logger.C75_with_environment",
    "Neorl.Logger.C75_parallel_loses"
   ],
   "note": "C75_parallel_loses is a defect."
  },
  {
   "property": "C76",
   "status": "proved",
   "theorems": [
    "Neorl.Informed.C76_learn",
    "Neorl.Informed.C76_total",
    "Neorl.Informed.C76_feasible",
    "Neorl.Informed.C76_decodes"
   ],
   "note": ""
  },
  {
   "property": "C77",
   "status": "proved",
   "theorems": [
    "Neorl.Informed.C77_mix",
    "Neorl.Informed.C77_ackde",
    "Neorl.Informed.C77_total",
    "Neorl.Informed.C77_refused",
    "Neorl.Informed.C77_string_grid",
    "Neorl.Informed.C77_encoded_twice",
    "Neorl.Informed.C77_learn_evolute",
    "Neorl.Informed.C77_best_lost"
   ],
   "note": "C77_string_grid, C77_encoded_twice and C77_best_lost are defects."
  },
  {
   "property": "C78",
   "status": "proved",
   "theorems": [
    "Neorl.Informed.C78_ppoes",
    "Neorl.Informed.C78_total",
    "Neorl.Informed.C78_too_many",
    "Neorl.Informed.C78_mismatch",
    "Neorl.Informed.C78_start_lost",
    "Neorl.Informed.C78_alpha_ignored"
   ],
   "note": "C78_too_many, C78_mismatch and C78_start_lost are defects."
  },
  {
   "property": "C79",
   "status": "proved",
   "theorems": [
    "Neorl.Classic.C79_minima",
    "Neorl.Classic.C79_minima_one",
    "Neorl.Classic.C79_lists",
    "Neorl.Classic.C79_yang",
    "Neorl.Classic.C79_decimals"
   ],
   "note": "Real arithmetic; shubert, ridge and alpine are not modelled."
  },
  {
   "property": "C80",
   "status": "proved",
   "theorems": [
    "Neorl.Classic.C80_quartic",
    "Neorl.Classic.C80_flat",
    "Neorl.Classic.C80_refused",
    "Neorl.Classic.C80_cigar"
   ],
   "note": "C80_quartic, C80_flat and C80_cigar are defects."
  },
  {
   "property": "C81",
   "status": "proved",
   "theorems": [
    "Neorl.CEC17.C81_minima",
    "Neorl.CEC17.C81_unique",
    "Neorl.CEC17.C81_levy",
    "Neorl.CEC17.C81_schwefel",
    "Neorl.CEC17.C81_f8_writes",
    "Neorl.CEC17.C81_tables"
   ],
   "note": "C81_levy, C81_schwefel and C81_f8_writes are defects."
  },
  {
   "property": "C82",
   "status": "proved",
   "theorems": [
    "Neorl.CEC17.C82_parts",
    "Neorl.CEC17.C82_minima",
    "Neorl.CEC17.C82_near",
    "Neorl.CEC17.C82_dimensions",
    "Neorl.CEC17.C82_tables"
   ],
   "note": "C82_dimensions is a defect."
  },
  {
   "property": "C83",
   "status": "proved",
   "theorems": [
    "Neorl.CEC17.C83_nan",
    "Neorl.CEC17.C83_nan_hybrids",
    "Neorl.CEC17.C83_never",
    "Neorl.CEC17.C83_tables",
    "Neorl.CEC17.C83_dimensions"
   ],
   "note": "C83_nan, C83_nan_hybrids, C83_never and C83_dimensions are defects."
  },
  {
   "property": "C84",
   "status": "proved",
   "theorems": [
    "Neorl.CEC08.C84_minima",
    "Neorl.CEC08.C84_global",
    "Neorl.CEC08.C84_oversize",
    "Neorl.CEC08.C84_F7_pure",
    "Neorl.CEC08.C84_F7_reseeds",
    "Neorl.CEC08.C84_F7_outside"
   ],
   "note": "C84_oversize and C84_F7_reseeds are defects."
  },
  {
   "property": "C85",
   "status": "proved",
   "theorems": [
    "Neorl.DTLZ.C85_sphere",
    "Neorl.DTLZ.C85_wrong_dimension",
    "Neorl.DTLZ.C85_rows",
    "Neorl.DTLZ.C85_pareto",
    "Neorl.DTLZ.C85_front",
    "Neorl.DTLZ.C85_front_complete",
    "Neorl.DTLZ.C85_cached",
    "Neorl.DTLZ.C85_nadir_fails",
    "Neorl.DTLZ.C85_nadir",
    "Neorl.DTLZ.C85_k_ignored",
    "Neorl.DTLZ.C85_k"
   ],
   "note": "C85_cached, C85_nadir_fails and C85_k_ignored are defects."
  },
  {
   "property": "C86",
   "status": "proved",
   "theorems": [
    "Neorl.Neat.C86_best",
    "Neorl.Neat.C86_history",
    "Neorl.Neat.C86_monotone",
    "Neorl.Neat.C86_total",
    "Neorl.Neat.C86_fitness"
   ],
   "note": "For rneat.py and fneat.py; the neat-python library is an arbitrary function from past fitness values to genomes."
  },
  {
   "property": "C87",
   "status": "proved",
   "theorems": [
    "Neorl.Neat.C87_steps",
    "Neorl.Neat.C87_start",
    "Neorl.Neat.C87_start_again"
   ],
   "note": "C87_start and C87_start_again are defects."
  },
  {
   "property": "C88",
   "status": "proved",
   "theorems": [
    "Neorl.Neat.C88_best",
    "Neorl.Neat.C88_steps",
    "Neorl.Neat.C88_same",
    "Neorl.Neat.C88_misses"
   ],
   "note": "C88_misses is a defect."
  },
  {
   "property": "C89",
   "status": "proved",
   "theorems": [
    "Neorl.Neat.C89_config",
    "Neorl.Neat.C89_defaults"
   ],
   "note": "The documented default of weight_mutate_rate is 0.5, the code has 0.8."
  },
  {
   "property": "C90",
   "status": "proved",
   "theorems": [
    "Neorl.CG.C90_solves",
    "Neorl.CG.C90_optimal",
    "Neorl.CG.C90_ascent",
    "Neorl.CG.C90_unique",
    "Neorl.CG.C90_zero",
    "Neorl.CG.C90_exact_lost"
   ],
   "note": "Exact arithmetic. C90_zero and C90_exact_lost are defects."
  },
  {
   "property": "C91",
   "status": "proved",
   "theorems": [
    "Neorl.VecEnv.C91_rows",
    "Neorl.VecEnv.C91_short",
    "Neorl.VecEnv.C91_processes",
    "Neorl.VecEnv.C91_terminates",
    "Neorl.VecEnv.C91_hangs",
    "Neorl.VecEnv.C91_seeds"
   ],
   "note": "The processes interleave arbitrarily, pipes are reliable queues; crashes of workers are not modelled. C91_hangs and part of C91_seeds are defects."
  },
  {
   "property": "C92",
   "status": "proved",
   "theorems": [
    "Neorl.VecNorm.C92_statistics",
    "Neorl.VecNorm.C92_step",
    "Neorl.VecNorm.C92_bounds",
    "Neorl.VecNorm.C92_faithful",
    "Neorl.VecNorm.C92_frozen",
    "Neorl.VecNorm.C92_reset_uncounted",
    "Neorl.VecNorm.C92_terminal_raw",
    "Neorl.VecNorm.C92_original",
    "Neorl.VecNorm.C92_load",
    "Neorl.VecNorm.C92_sync",
    "Neorl.VecNorm.C92_sync_short",
    "Neorl.VecNorm.C92_sync_order",
    "Neorl.VecNorm.C92_sync_unvec"
   ],
   "note": "One component of the observations (numpy acts componentwise); square root is a parameter. C92_reset_uncounted, C92_terminal_raw, C92_sync_order, C92_sync_unvec and part of C92_load are defects."
  },
  {
   "property": "C93",
   "status": "proved",
   "theorems": [
    "Neorl.VecStack.C93_window",
    "Neorl.VecStack.C93_terminal",
    "Neorl.VecStack.C93_steps_keep",
    "Neorl.VecStack.C93_reset_overwrites",
    "Neorl.VecStack.C93_space",
    "Neorl.VecStack.C93_space_wrong"
   ],
   "note": "Observations with one axis. C93_reset_overwrites and C93_space_wrong are defects."
  },
  {
   "property": "C94",
   "status": "proved",
   "theorems": [
    "Neorl.VecStack.C94_raise",
    "Neorl.VecStack.C94_warn",
    "Neorl.VecStack.C94_message"
   ],
   "note": ""
  },
  {
   "property": "C95",
   "status": "proved",
   "theorems": [
    "Neorl.Callbacks.C95_train",
    "Neorl.Callbacks.C95_list",
    "Neorl.Callbacks.C95_list_error",
    "Neorl.Callbacks.C95_list_stop",
    "Neorl.Callbacks.C95_stop_lost",
    "Neorl.Callbacks.C95_checkpoint",
    "Neorl.Callbacks.C95_checkpoint_distinct",
    "Neorl.Callbacks.C95_checkpoint_zero",
    "Neorl.Callbacks.C95_every",
    "Neorl.Callbacks.C95_every_uniform",
    "Neorl.Callbacks.C95_every_again",
    "Neorl.Callbacks.C95_eval",
    "Neorl.Callbacks.C95_eval_child",
    "Neorl.Callbacks.C95_stop",
    "Neorl.Callbacks.C95_stop_nested"
   ],
   "note": "Saving and evaluating are recorded as events. C95_stop_lost, C95_checkpoint_zero, C95_every_again and C95_stop_nested are defects."
  },
  {
   "property": "C96",
   "status": "proved",
   "theorems": [
    "Neorl.Rollout.C96_rollouts",
    "Neorl.Rollout.C96_stopped",
    "Neorl.Rollout.C96_stale",
    "Neorl.Rollout.C96_updates",
    "Neorl.Rollout.C96_nothing",
    "Neorl.Rollout.C96_frac"
   ],
   "note": "Environments, policy and learning update are arbitrary functions; all environments together are one value (the vector of environments is C91). C96_stale and C96_nothing are defects."
  },
  {
   "property": "C97",
   "status": "proved",
   "theorems": [
    "Neorl.Rollout.C97_minibatches",
    "Neorl.Rollout.C97_refused",
    "Neorl.Rollout.C97_recurrent",
    "Neorl.Rollout.C97_flatten"
   ],
   "note": "Shuffles are arbitrary permutations."
  },
  {
   "property": "C98",
   "status": "proved",
   "theorems": [
    "Neorl.DQN.C98_learn",
    "Neorl.DQN.C98_stopped",
    "Neorl.DQN.C98_short",
    "Neorl.DQN.C98_never",
    "Neorl.DQN.C98_again",
    "Neorl.DQN.C98_freq_zero"
   ],
   "note": "Uniform replay; environment, Q network and gradient step are arbitrary functions; parameter noise and observation normalisation are not in this model. C98_short, C98_never and C98_freq_zero are defects."
  },
  {
   "property": "C99",
   "status": "proved",
   "theorems": [
    "Neorl.Monitor.C99_monitor",
    "Neorl.Monitor.C99_info",
    "Neorl.Monitor.C99_keywords",
    "Neorl.Monitor.C99_reset_missing",
    "Neorl.Monitor.C99_evaluate",
    "Neorl.Monitor.C99_monitored",
    "Neorl.Monitor.C99_vec_monitor",
    "Neorl.Monitor.C99_threshold"
   ],
   "note": "Environment and policy are arbitrary functions; the CSV file is the list of its rows; wall-clock times are left out. C99_reset_missing, C99_vec_monitor and C99_threshold are defects."
  },
  {
   "property": "C100",
   "status": "proved",
   "theorems": [
    "Neorl.PESAX.C100_best",
    "Neorl.PESAX.C100_default_memory",
    "Neorl.PESAX.C100_attained",
    "Neorl.PESAX.C100_second_call",
    "Neorl.PESAX.C100_next",
    "Neorl.PESAX.C100_velocity",
    "Neorl.PESAX.C100_populations",
    "Neorl.PESAX.C100_alpha",
    "Neorl.PESAX.C100_timew",
    "Neorl.PESAX.C100_seeded",
    "Neorl.PESAX.C100_refused",
    "Neorl.PESAX.C100_total",
    "Neorl.PESAX.C100_swarm_best",
    "Neorl.PESAX.C100_loses"
   ],
   "note": "Serial and parallel runs differ in the model by the weight only; a seed is modelled for DE and for the memory, the draws of ES and PSO are arbitrary. C100_second_call, C100_timew, C100_seeded, C100_refused, C100_swarm_best, C100_loses and the equal samples in C100_next are defects."
  },
  {
   "property": "C101",
   "status": "proved",
   "theorems": [
    "Neorl.ND.C101_extreme",
    "Neorl.ND.C101_intercepts",
    "Neorl.ND.C101_unit",
    "Neorl.ND.C101_nearest",
    "Neorl.ND.C101_units",
    "Neorl.ND.C101_shift",
    "Neorl.ND.C101_flipped",
    "Neorl.ND.C101_constant",
    "Neorl.ND.C101_associate",
    "Neorl.ND.C101_select",
    "Neorl.ND.C101_translated"
   ],
   "note": "np.linalg.solve is any function whose answers solve the system, the square root any function with the defining property; in C101_constant and the other cases with a zero denominator the nan rows go to reference 0, as np.argmin does. C101_shift, C101_flipped, C101_translated and C101_constant are defects."
  },
  {
   "property": "C102",
   "status": "proved",
   "theorems": [
    "Neorl.Dist.C102_cat_prob",
    "Neorl.Dist.C102_cat_invalid",
    "Neorl.Dist.C102_cat_entropy",
    "Neorl.Dist.C102_cat_kl",
    "Neorl.Dist.C102_cat_mode",
    "Neorl.Dist.C102_cat_sample",
    "Neorl.Dist.C102_multi_split",
    "Neorl.Dist.C102_multi",
    "Neorl.Dist.C102_multi_mode",
    "Neorl.Dist.C102_bernoulli",
    "Neorl.Dist.C102_bernoulli_sample",
    "Neorl.Dist.C102_bernoulli_mode",
    "Neorl.Dist.C102_gauss_density",
    "Neorl.Dist.C102_gauss_sample",
    "Neorl.Dist.C102_gauss_entropy_kl",
    "Neorl.Dist.C102_gauss_kl",
    "Neorl.Dist.C102_gauss_mode"
   ],
   "note": "Over the real numbers. C102_cat_sample, C102_bernoulli_sample and C102_gauss_sample are statements about measures: uniform noise on the unit cube, standard normal noise. C102_cat_invalid is a defect."
  },
  {
   "property": "C103",
   "status": "proved",
   "theorems": [
    "Neorl.MathUtil.C103_scale",
    "Neorl.MathUtil.C103_explained",
    "Neorl.MathUtil.C103_explained_2d",
    "Neorl.MathUtil.C103_explained_one",
    "Neorl.MathUtil.C103_flatten",
    "Neorl.MathUtil.C103_unflatten",
    "Neorl.MathUtil.C103_scalar",
    "Neorl.MathUtil.C103_adapt",
    "Neorl.MathUtil.C103_adapt_converges",
    "Neorl.MathUtil.C103_ou",
    "Neorl.MathUtil.C103_ou_float"
   ],
   "note": "Exact arithmetic over any ordered field. C103_explained_2d, C103_scalar and C103_ou_float are defects."
  },
  {
   "property": "C104",
   "status": "proved",
   "theorems": [
    "Neorl.Atari.C104_noop",
    "Neorl.Atari.C104_noop_exact",
    "Neorl.Atari.C104_fire",
    "Neorl.Atari.C104_fire_skipped",
    "Neorl.Atari.C104_fire_stale",
    "Neorl.Atari.C104_life_reset",
    "Neorl.Atari.C104_life_step",
    "Neorl.Atari.C104_life_over",
    "Neorl.Atari.C104_skip",
    "Neorl.Atari.C104_skip_stale",
    "Neorl.Atari.C104_skip_small",
    "Neorl.Atari.C104_clip",
    "Neorl.Atari.C104_warp",
    "Neorl.Atari.C104_stack"
   ],
   "note": "The wrapped game is an arbitrary deterministic transition function. C104_fire_skipped, C104_fire_stale, C104_life_over, C104_skip_stale, C104_skip_small and C104_warp are defects."
  },
  {
   "property": "C105",
   "status": "proved",
   "theorems": [
    "Neorl.ESTune.C105_table",
    "Neorl.ESTune.C105_plain",
    "Neorl.ESTune.C105_grid",
    "Neorl.ESTune.C105_single",
    "Neorl.ESTune.C105_total"
   ],
   "note": "Exact arithmetic. The evolution strategy is the model of C13/C14, the encoding that of C05. C105_grid and C105_single are defects; the call count in C105_table differs from the documentation."
  },
  {
   "property": "C106",
   "status": "proved",
   "theorems": [
    "Neorl.PPOLoss.C106_ratio",
    "Neorl.PPOLoss.C106_surrogate",
    "Neorl.PPOLoss.C106_pessimistic",
    "Neorl.PPOLoss.C106_gradient",
    "Neorl.PPOLoss.C106_advantages",
    "Neorl.PPOLoss.C106_constant",
    "Neorl.PPOLoss.C106_first",
    "Neorl.PPOLoss.C106_clipfrac",
    "Neorl.PPOLoss.C106_range",
    "Neorl.PPOLoss.C106_value",
    "Neorl.PPOLoss.C106_value_floor",
    "Neorl.PPOLoss.C106_value_flat",
    "Neorl.PPOLoss.C106_total"
   ],
   "note": "Exact real arithmetic; the outputs of the network (log probabilities, values, entropy) are arbitrary numbers. Optimiser and gradient clipping are not modelled."
  },
  {
   "property": "C107",
   "status": "proved",
   "theorems": [
    "Neorl.QLoss.C107_greedy",
    "Neorl.QLoss.C107_act",
    "Neorl.QLoss.C107_update",
    "Neorl.QLoss.C107_threshold",
    "Neorl.QLoss.C107_scale",
    "Neorl.QLoss.C107_error",
    "Neorl.QLoss.C107_target",
    "Neorl.QLoss.C107_double",
    "Neorl.QLoss.C107_contraction",
    "Neorl.QLoss.C107_huber",
    "Neorl.QLoss.C107_loss",
    "Neorl.QLoss.C107_pull",
    "Neorl.QLoss.C107_dueling"
   ],
   "note": "Exact real arithmetic; the outputs of the networks are arbitrary numbers. Gradient clipping and the optimiser are not modelled."
  },
  {
   "property": "C108",
   "status": "proved",
   "theorems": [
    "Neorl.ACERLoss.C108_strip",
    "Neorl.ACERLoss.C108_index",
    "Neorl.ACERLoss.C108_stats",
    "Neorl.ACERLoss.C108_stats_init",
    "Neorl.ACERLoss.C108_cut",
    "Neorl.ACERLoss.C108_stats_mean",
    "Neorl.ACERLoss.C108_weights",
    "Neorl.ACERLoss.C108_weights_exact",
    "Neorl.ACERLoss.C108_gain",
    "Neorl.ACERLoss.C108_bounded",
    "Neorl.ACERLoss.C108_klgrad",
    "Neorl.ACERLoss.C108_policy",
    "Neorl.ACERLoss.C108_trust_inside",
    "Neorl.ACERLoss.C108_trust",
    "Neorl.ACERLoss.C108_trust_eps",
    "Neorl.ACERLoss.C108_value",
    "Neorl.ACERLoss.C108_gradient"
   ],
   "note": "Discrete actions, exact real arithmetic; the outputs of the networks are arbitrary numbers. C108_policy states a defect: the entropy bonus is without effect when the trust region is on."
  },
  {
   "property": "C109",
   "status": "proved",
   "theorems": [
    "Neorl.InputFile.C109_card",
    "Neorl.InputFile.C109_last",
    "Neorl.InputFile.C109_equals",
    "Neorl.InputFile.C109_noeq",
    "Neorl.InputFile.C109_env",
    "Neorl.InputFile.C109_hang",
    "Neorl.InputFile.C109_accept",
    "Neorl.InputFile.C109_general",
    "Neorl.InputFile.C109_blocks",
    "Neorl.InputFile.C109_conv",
    "Neorl.InputFile.C109_freq",
    "Neorl.InputFile.C109_values",
    "Neorl.InputFile.C109_cores",
    "Neorl.InputFile.C109_tune",
    "Neorl.InputFile.C109_tune_bool",
    "Neorl.InputFile.C109_lines",
    "Neorl.InputFile.C109_file",
    "Neorl.InputFile.C109_rounds"
   ],
   "note": "White space and letters of Python are two predicates on characters, eval of env_data and the number syntax are oracles. C109_equals, C109_hang, C109_tune_bool and parts of C109_accept and C109_values state defects."
  },
  {
   "property": "C110",
   "status": "proved",
   "theorems": [
    "Neorl.Reactivity.C110_integral",
    "Neorl.Reactivity.C110_lookup",
    "Neorl.Reactivity.C110_node",
    "Neorl.Reactivity.C110_turns",
    "Neorl.Reactivity.C110_eval",
    "Neorl.Reactivity.C110_rest",
    "Neorl.Reactivity.C110_nom",
    "Neorl.Reactivity.C110_derivative",
    "Neorl.Reactivity.C110_gradient",
    "Neorl.Reactivity.C110_far",
    "Neorl.Reactivity.C110_table"
   ],
   "note": "Exact real arithmetic; reading the CSV files is not modelled (the tables are arguments), interp1d and searchsorted are modelled by their documented behaviour. C110_node, C110_nom and C110_far state defects."
  },
  {
   "property": "C111",
   "status": "proved",
   "theorems": [
    "Neorl.ToyEnvs.C111_step",
    "Neorl.ToyEnvs.C111_code",
    "Neorl.ToyEnvs.C111_space",
    "Neorl.ToyEnvs.C111_optimal",
    "Neorl.ToyEnvs.C111_start",
    "Neorl.ToyEnvs.C111_identity",
    "Neorl.ToyEnvs.C111_box",
    "Neorl.ToyEnvs.C111_reset"
   ],
   "note": "Exact arithmetic; gym spaces modelled by their documented membership test; samples are arguments. C111_space and part of C111_start state defects."
  },
  {
   "property": "C112",
   "status": "proved",
   "theorems": [
    "Neorl.Traj.C112_segments",
    "Neorl.Traj.C112_trace",
    "Neorl.Traj.C112_stop",
    "Neorl.Traj.C112_episodes"
   ],
   "note": "Policy, environment, reward giver and callback are arbitrary functions. C112_stop states a defect. Exact arithmetic instead of float32."
  },
  {
   "property": "C113",
   "status": "proved",
   "theorems": [
    "Neorl.Lstm.C113_unroll",
    "Neorl.Lstm.C113_consistent",
    "Neorl.Lstm.C113_reset",
    "Neorl.Lstm.C113_bounds",
    "Neorl.Lstm.C113_cell",
    "Neorl.Lstm.C113_norm",
    "Neorl.Lstm.C113_cell_norm"
   ],
   "note": "Exact arithmetic; sigmoid, tanh and the layer normalisation are arbitrary functions (bounded ones in C113_bounds). TensorFlow placeholders and variable scopes are not modelled."
  },
  {
   "property": "C114",
   "status": "proved",
   "theorems": [
    "Neorl.ActProb.C114_shape",
    "Neorl.ActProb.C114_predict",
    "Neorl.ActProb.C114_refused",
    "Neorl.ActProb.C114_discrete",
    "Neorl.ActProb.C114_discrete_invalid",
    "Neorl.ActProb.C114_multi",
    "Neorl.ActProb.C114_binary",
    "Neorl.ActProb.C114_box",
    "Neorl.ActProb.C114_box_wrong",
    "Neorl.ActProb.C114_box_sizes",
    "Neorl.ActProb.C114_all",
    "Neorl.ActProb.C114_all_batch",
    "Neorl.ActProb.C114_all_lossy",
    "Neorl.ActProb.C114_softmax"
   ],
   "note": "Over the real numbers; the network output is arbitrary. C114_box, C114_box_wrong, C114_box_sizes, C114_all_lossy and C114_discrete_invalid state defects: for Box action spaces the reported density is never that of the policy."
  },
  {
   "property": "C115",
   "status": "proved",
   "theorems": [
    "Neorl.Save.C115_json",
    "Neorl.Save.C115_data",
    "Neorl.Save.C115_changed",
    "Neorl.Save.C115_kwargs",
    "Neorl.Save.C115_keys",
    "Neorl.Save.C115_marker",
    "Neorl.Save.C115_params",
    "Neorl.Save.C115_load",
    "Neorl.Save.C115_transfer",
    "Neorl.Save.C115_list",
    "Neorl.Save.C115_file",
    "Neorl.Save.C115_stale",
    "Neorl.Save.C115_pickle"
   ],
   "note": "json is modelled on trees, cloudpickle as a function with an inverse, np.savez as a table, the file system as a table. C115_changed, C115_kwargs, C115_keys, C115_marker, C115_stale, C115_pickle and part of C115_list state defects."
  },
  {
   "property": "C116",
   "status": "proved",
   "theorems": [
    "Neorl.RunId.C116_latest",
    "Neorl.RunId.C116_fresh",
    "Neorl.RunId.C116_sequence",
    "Neorl.RunId.C116_continue"
   ],
   "note": "The log directory is the list of names in it; ASCII names without characters special to glob; no concurrent sessions."
  },
  {
   "property": "C117",
   "status": "proved",
   "theorems": [
    "Neorl.TextLog.C117_last",
    "Neorl.TextLog.C117_mean",
    "Neorl.TextLog.C117_mixed",
    "Neorl.TextLog.C117_none",
    "Neorl.TextLog.C117_csv",
    "Neorl.TextLog.C117_columns",
    "Neorl.TextLog.C117_commas",
    "Neorl.TextLog.C117_empty",
    "Neorl.TextLog.C117_table",
    "Neorl.TextLog.C117_short",
    "Neorl.TextLog.C117_cut",
    "Neorl.TextLog.C117_lossy",
    "Neorl.TextLog.C117_json",
    "Neorl.TextLog.C117_json_shape",
    "Neorl.TextLog.C117_tensorboard",
    "Neorl.TextLog.C117_version",
    "Neorl.TextLog.C117_two_runs",
    "Neorl.TextLog.C117_dump",
    "Neorl.TextLog.C117_converted",
    "Neorl.TextLog.C117_repeat",
    "Neorl.TextLog.C117_session"
   ],
   "note": "Printing of numbers, the order of sets and float() of texts are parameters. C117_mixed, C117_none, C117_commas, C117_empty, C117_lossy, C117_json_shape, C117_two_runs, C117_repeat and C117_converted state defects."
  },
  {
   "property": "C118",
   "status": "proved",
   "theorems": [
    "Neorl.Attach.C118_construct",
    "Neorl.Attach.C118_name",
    "Neorl.Attach.C118_accept",
    "Neorl.Attach.C118_refused",
    "Neorl.Attach.C118_session",
    "Neorl.Attach.C118_fixed",
    "Neorl.Attach.C118_without",
    "Neorl.Attach.C118_wrap",
    "Neorl.Attach.C118_lost",
    "Neorl.Attach.C118_budget",
    "Neorl.Attach.C118_acktr",
    "Neorl.Attach.C118_stale",
    "Neorl.Attach.C118_dropped",
    "Neorl.Attach.C118_samples",
    "Neorl.Attach.C118_verbosity",
    "Neorl.Attach.C118_silent",
    "Neorl.Attach.C118_nested",
    "Neorl.Attach.C118_unset"
   ],
   "note": "Networks, runners and spaces are abstract; the number of steps a rollout takes is that of the runner. C118_without, C118_wrap, C118_lost, C118_stale, C118_dropped and C118_unset state defects."
  },
  {
   "property": "C119",
   "status": "proved",
   "theorems": [
    "Neorl.Anneal.C119_single",
    "Neorl.Anneal.C119_dual",
    "Neorl.Anneal.C119_chain",
    "Neorl.Anneal.C119_reports",
    "Neorl.Anneal.C119_rates",
    "Neorl.Anneal.C119_steps",
    "Neorl.Anneal.C119_last",
    "Neorl.Anneal.C119_range",
    "Neorl.Anneal.C119_length",
    "Neorl.Anneal.C119_rows",
    "Neorl.Anneal.C119_none",
    "Neorl.Anneal.C119_start",
    "Neorl.Anneal.C119_quad",
    "Neorl.Anneal.C119_stuck",
    "Neorl.Anneal.C119_small",
    "Neorl.Anneal.C119_cooling",
    "Neorl.Anneal.C119_schedules",
    "Neorl.Anneal.C119_full",
    "Neorl.Anneal.C119_kbs",
    "Neorl.Anneal.C119_lost",
    "Neorl.Anneal.C119_trunc"
   ],
   "note": "Temperatures in the chain are a parameter (formulas in C119_cooling over the reals); plotting and printing are left out. C119_steps, C119_last, C119_lost, C119_none, C119_start, C119_quad, C119_stuck, C119_small and C119_trunc state defects."
  },
  {
   "property": "C120",
   "status": "proved",
   "theorems": [
    "Neorl.Kfac.C120_solves",
    "Neorl.Kfac.C120_descent",
    "Neorl.Kfac.C120_threshold",
    "Neorl.Kfac.C120_size",
    "Neorl.Kfac.C120_trust",
    "Neorl.Kfac.C120_scaling",
    "Neorl.Kfac.C120_blocks",
    "Neorl.Kfac.C120_covariance",
    "Neorl.Kfac.C120_counters",
    "Neorl.Kfac.C120_average",
    "Neorl.Kfac.C120_within",
    "Neorl.Kfac.C120_factors",
    "Neorl.Kfac.C120_moves",
    "Neorl.Kfac.C120_both",
    "Neorl.Kfac.C120_bare",
    "Neorl.Kfac.C120_momentum",
    "Neorl.Kfac.C120_clip"
   ],
   "note": "Over the reals; the eigenvalue decomposition is a parameter with orthogonal eigenvectors; convolutions, asynchronous queues, full_stats_init and the search of the graph are left out. That an operation made outside the branches of tf.cond runs at every step is a fact about TensorFlow taken from its documentation. C120_both and C120_bare state defects."
  },
  {
   "property": "C121",
   "status": "proved",
   "theorems": [
    "Neorl.GARun.C121_construct",
    "Neorl.GARun.C121_inside",
    "Neorl.GARun.C121_count",
    "Neorl.GARun.C121_generation",
    "Neorl.GARun.C121_reports",
    "Neorl.GARun.C121_steps",
    "Neorl.GARun.C121_total",
    "Neorl.GARun.C121_single",
    "Neorl.GARun.C121_grid",
    "Neorl.GARun.C121_kbs",
    "Neorl.GARun.C121_foreign",
    "Neorl.GARun.C121_lost",
    "Neorl.GARun.C121_wild",
    "Neorl.GARun.C121_stale"
   ],
   "note": "env.fit is a parameter; plots, the printed strategy statistics and the process pool are left out. C121_single, C121_grid, C121_kbs, C121_foreign, C121_lost, C121_wild and C121_stale state defects."
  },
  {
   "property": "C122",
   "status": "proved",
   "theorems": [
    "Neorl.TuneFile.C122_template",
    "Neorl.TuneFile.C122_template_mention",
    "Neorl.TuneFile.C122_template_none",
    "Neorl.TuneFile.C122_fill",
    "Neorl.TuneFile.C122_layout",
    "Neorl.TuneFile.C122_fill_short",
    "Neorl.TuneFile.C122_nested",
    "Neorl.TuneFile.C122_files",
    "Neorl.TuneFile.C122_params",
    "Neorl.TuneFile.C122_element",
    "Neorl.TuneFile.C122_trunc",
    "Neorl.TuneFile.C122_grid",
    "Neorl.TuneFile.C122_random",
    "Neorl.TuneFile.C122_reach",
    "Neorl.TuneFile.C122_no_keyword",
    "Neorl.TuneFile.C122_order",
    "Neorl.TuneFile.C122_shift",
    "Neorl.TuneFile.C122_row",
    "Neorl.TuneFile.C122_results",
    "Neorl.TuneFile.C122_run"
   ],
   "note": "Number syntax and the runs of the case files (their *_out.csv) are oracles, the order in which the pool writes lines is arbitrary. C122_template_mention, C122_nested, C122_no_keyword and C122_shift state defects."
  },
  {
   "property": "C123",
   "status": "proved",
   "theorems": [
    "Neorl.TuneRun.C123_card",
    "Neorl.TuneRun.C123_mean",
    "Neorl.TuneRun.C123_mean_none",
    "Neorl.TuneRun.C123_finish",
    "Neorl.TuneRun.C123_search",
    "Neorl.TuneRun.C123_rows",
    "Neorl.TuneRun.C123_reused",
    "Neorl.TuneRun.C123_serial",
    "Neorl.TuneRun.C123_parallel",
    "Neorl.TuneRun.C123_reported",
    "Neorl.TuneRun.C123_order",
    "Neorl.TuneRun.C123_types",
    "Neorl.TuneRun.C123_answer",
    "Neorl.TuneRun.C123_start",
    "Neorl.TuneRun.C123_no_keyword",
    "Neorl.TuneRun.C123_es",
    "Neorl.TuneRun.C123_es_total",
    "Neorl.TuneRun.C123_es_single",
    "Neorl.TuneRun.C123_es_const",
    "Neorl.TuneRun.C123_es_first",
    "Neorl.TuneRun.C123_es_failed",
    "Neorl.TuneRun.C123_es_tune",
    "Neorl.TuneRun.C123_normal"
   ],
   "note": "The surrogate of the Bayesian search (gp_minimize) is an arbitrary function of the values and answers so far; number syntax, the logs a case leaves, all draws, the order in which the pool writes rows and the order of ten failed members are arbitrary. C123_mean, C123_mean_none, C123_reused, C123_reported, C123_no_keyword, C123_normal, C123_es_single, C123_es_const, C123_es_first, C123_es_failed and part of C123_es_tune state defects."
  },
  {
   "property": "C124",
   "status": "proved",
   "theorems": [
    "Neorl.PGLoss.C124_gradient",
    "Neorl.PGLoss.C124_gaussian",
    "Neorl.PGLoss.C124_same_loss",
    "Neorl.PGLoss.C124_baseline",
    "Neorl.PGLoss.C124_direction",
    "Neorl.PGLoss.C124_bonus",
    "Neorl.PGLoss.C124_value",
    "Neorl.PGLoss.C124_shift",
    "Neorl.PGLoss.C124_fisher",
    "Neorl.PGLoss.C124_advantages",
    "Neorl.PGLoss.C124_clip",
    "Neorl.PGLoss.C124_step",
    "Neorl.PGLoss.C124_rate",
    "Neorl.PGLoss.C124_learn",
    "Neorl.PGLoss.C124_linear"
   ],
   "note": "Network outputs and the gradient of the loss with respect to the network parameters are arbitrary functions; tf.clip_by_global_norm and RMSProp are the documented formulas; the optimiser of ACKTR is C120."
  },
  {
   "property": "C125",
   "status": "proved",
   "theorems": [
    "Neorl.RunFiles.C125_stem",
    "Neorl.RunFiles.C125_start",
    "Neorl.RunFiles.C125_subdir",
    "Neorl.RunFiles.C125_blank",
    "Neorl.RunFiles.C125_refused",
    "Neorl.RunFiles.C125_header",
    "Neorl.RunFiles.C125_columns",
    "Neorl.RunFiles.C125_found",
    "Neorl.RunFiles.C125_procs",
    "Neorl.RunFiles.C125_mode",
    "Neorl.RunFiles.C125_command",
    "Neorl.RunFiles.C125_tune"
   ],
   "note": "The file system is a function from paths to directories and contents; os and shutil calls are the documented operations on it; the parsed input is that of C109."
  },
  {
   "property": "C126",
   "status": "proved",
   "theorems": [
    "Neorl.SavePlot.C126_blocks",
    "Neorl.SavePlot.C126_point",
    "Neorl.SavePlot.C126_cumavg",
    "Neorl.SavePlot.C126_layout",
    "Neorl.SavePlot.C126_color",
    "Neorl.SavePlot.C126_plot",
    "Neorl.SavePlot.C126_window",
    "Neorl.SavePlot.C126_mean",
    "Neorl.SavePlot.C126_rollouts",
    "Neorl.SavePlot.C126_call",
    "Neorl.SavePlot.C126_times",
    "Neorl.SavePlot.C126_best",
    "Neorl.SavePlot.C126_exit",
    "Neorl.SavePlot.C126_last",
    "Neorl.SavePlot.C126_short",
    "Neorl.SavePlot.C126_zero",
    "Neorl.SavePlot.C126_freq",
    "Neorl.SavePlot.C126_eval"
   ],
   "note": "The csv file written by the environment and the weights after each update are oracles; a figure is the data handed to the plotting library; the loops of learn are the times at which they call the callback."
  },
  {
   "property": "C127",
   "status": "proved",
   "theorems": [
    "Neorl.Nets.C127_onehot",
    "Neorl.Nets.C127_scaled",
    "Neorl.Nets.C127_box",
    "Neorl.Nets.C127_inject",
    "Neorl.Nets.C127_encode",
    "Neorl.Nets.C127_linear",
    "Neorl.Nets.C127_mlp",
    "Neorl.Nets.C127_sizes",
    "Neorl.Nets.C127_ignored",
    "Neorl.Nets.C127_separate",
    "Neorl.Nets.C127_names",
    "Neorl.Nets.C127_heads",
    "Neorl.Nets.C127_feedforward",
    "Neorl.Nets.C127_lstm",
    "Neorl.Nets.C127_lstm_legacy",
    "Neorl.Nets.C127_step",
    "Neorl.Nets.C127_nature",
    "Neorl.Nets.C127_ortho",
    "Neorl.Nets.C127_gain",
    "Neorl.Nets.C127_register",
    "Neorl.Nets.C127_refused"
   ],
   "note": "Numbers form an ordered field; activation, convolutional features and recurrent layer are arbitrary functions; the singular value decomposition is given by its orthonormality. Variables are a function of the scope, so the graph is read as the function it computes."
  },
  {
   "property": "C128",
   "status": "proved",
   "theorems": [
    "Neorl.Pretrain.C128_entropy",
    "Neorl.Pretrain.C128_clone",
    "Neorl.Pretrain.C128_shift",
    "Neorl.Pretrain.C128_best",
    "Neorl.Pretrain.C128_square",
    "Neorl.Pretrain.C128_mean",
    "Neorl.Pretrain.C128_mean_square",
    "Neorl.Pretrain.C128_clone_batch",
    "Neorl.Pretrain.C128_train",
    "Neorl.Pretrain.C128_fails",
    "Neorl.Pretrain.C128_forgets",
    "Neorl.Pretrain.C128_none",
    "Neorl.Pretrain.C128_quiet",
    "Neorl.Pretrain.C128_reports"
   ],
   "note": "One step of the optimiser is an arbitrary function of parameters, optimiser state and batch; the loader is an arbitrary stream of batches; losses over the reals."
  },
  {
   "property": "C129",
   "status": "proved",
   "theorems": [
    "Neorl.DQNNet.C129_two_layers",
    "Neorl.DQNNet.C129_cnn",
    "Neorl.DQNNet.C129_build",
    "Neorl.DQNNet.C129_refused",
    "Neorl.DQNNet.C129_dueling_ignored",
    "Neorl.DQNNet.C129_state",
    "Neorl.DQNNet.C129_mean",
    "Neorl.DQNNet.C129_ln_cnn",
    "Neorl.DQNNet.C129_layer_norm",
    "Neorl.DQNNet.C129_ln_bias",
    "Neorl.DQNNet.C129_ln_one",
    "Neorl.DQNNet.C129_no_action",
    "Neorl.DQNNet.C129_choice",
    "Neorl.DQNNet.C129_predict",
    "Neorl.DQNNet.C129_proba",
    "Neorl.DQNNet.C129_action_probability",
    "Neorl.DQNNet.C129_logp_ignored",
    "Neorl.DQNNet.C129_invalid"
   ],
   "note": "Over the reals. fully_connected and layer_norm are the formulas of their documentation; the features of the CNN and the activation function are arbitrary functions; a draw of np.random.choice is one uniform number. The written-out formula is for two hidden layers; the statements on dueling, layer normalisation and acting are for any layers."
  },
  {
   "property": "C130",
   "status": "proved",
   "theorems": [
    "Neorl.VecAttr.C130_targets",
    "Neorl.VecAttr.C130_same",
    "Neorl.VecAttr.C130_call",
    "Neorl.VecAttr.C130_get",
    "Neorl.VecAttr.C130_pending",
    "Neorl.VecAttr.C130_structured",
    "Neorl.VecAttr.C130_missing",
    "Neorl.VecAttr.C130_attribute",
    "Neorl.VecAttr.C130_unvec_set",
    "Neorl.VecAttr.C130_grid",
    "Neorl.VecAttr.C130_tiles",
    "Neorl.VecAttr.C130_make",
    "Neorl.VecAttr.C130_make_id"
   ],
   "note": "A call on an environment is an arbitrary function of its state that does not raise; processes and main program interleave in any order over FIFO pipes. Arrays of tile_images are functions of indices."
  },
  {
   "property": "C131",
   "status": "proved",
   "theorems": [
    "Neorl.EPSPool.C131_delete",
    "Neorl.EPSPool.C131_reuse",
    "Neorl.EPSPool.C131_generation",
    "Neorl.EPSPool.C131_run",
    "Neorl.EPSPool.C131_kept",
    "Neorl.EPSPool.C131_rate",
    "Neorl.EPSPool.C131_stale",
    "Neorl.EPSPool.C131_removed",
    "Neorl.EPSPool.C131_converged"
   ],
   "note": "Random integers are arbitrary numbers below their bound; which members are successful is an arbitrary rule (the trials and the selection are in the model of EDEV, C44)."
  },
  {
   "property": "C132",
   "status": "proved",
   "theorems": [
    "Neorl.BenchMore.C132_alpine1",
    "Neorl.BenchMore.C132_alpine1_other",
    "Neorl.BenchMore.C132_alpine2",
    "Neorl.BenchMore.C132_shubert_min",
    "Neorl.BenchMore.C132_shubert_repeats",
    "Neorl.BenchMore.C132_shubert_perm",
    "Neorl.BenchMore.C132_shubert_size",
    "Neorl.BenchMore.C132_ridge",
    "Neorl.BenchMore.C132_ridge_min",
    "Neorl.BenchMore.C132_ridge_unbounded",
    "Neorl.BenchMore.C132_power",
    "Neorl.BenchMore.C132_surface",
    "Neorl.BenchMore.C132_surface_error"
   ],
   "note": "Over the real numbers; the network of the power model is an arbitrary function; the drawing itself is not modelled."
  },
  {
   "property": "C133",
   "status": "proved",
   "theorems": [
    "Neorl.MonLoad.C133_found",
    "Neorl.MonLoad.C133_hidden",
    "Neorl.MonLoad.C133_once",
    "Neorl.MonLoad.C133_load",
    "Neorl.MonLoad.C133_clock",
    "Neorl.MonLoad.C133_single",
    "Neorl.MonLoad.C133_refused",
    "Neorl.MonLoad.C133_unfinished"
   ],
   "note": "A file is what its parsing gives; sorting by time is any function that sorts; rounding of times and the listing of directories are left out."
  },
  {
   "property": "C134",
   "status": "proved",
   "theorems": [
    "Neorl.Seeds.C134_seed",
    "Neorl.Seeds.C134_repeat",
    "Neorl.Seeds.C134_anytime",
    "Neorl.Seeds.C134_which",
    "Neorl.Seeds.C134_twice",
    "Neorl.Seeds.C134_overwritten",
    "Neorl.Seeds.C134_goes_on",
    "Neorl.Seeds.C134_chains",
    "Neorl.Seeds.C134_same_draws",
    "Neorl.Seeds.C134_neighbours",
    "Neorl.Seeds.C134_pesa",
    "Neorl.Seeds.C134_pesa_repeat",
    "Neorl.Seeds.C134_prior",
    "Neorl.Seeds.C134_environments"
   ],
   "note": "What a seed makes of a generator and what programs draw are arbitrary functions; the generator of TensorFlow and the mode of PESA with one process per method are left out."
  },
  {
   "property": "C135",
   "status": "proved",
   "theorems": [
    "Neorl.Compare.C135_keeps",
    "Neorl.Compare.C135_affine",
    "Neorl.Compare.C135_negate",
    "Neorl.Compare.C135_de",
    "Neorl.Compare.C135_jaya",
    "Neorl.Compare.C135_gwo",
    "Neorl.Compare.C135_woa",
    "Neorl.Compare.C135_ssa",
    "Neorl.Compare.C135_cs",
    "Neorl.Compare.C135_aco",
    "Neorl.Compare.C135_hho",
    "Neorl.Compare.C135_bat",
    "Neorl.Compare.C135_mfo",
    "Neorl.Compare.C135_es",
    "Neorl.Compare.C135_pso",
    "Neorl.Compare.C135_xnes",
    "Neorl.Compare.C135_sa_negate",
    "Neorl.Compare.C135_ts_negate",
    "Neorl.Compare.C135_pso_negate",
    "Neorl.Compare.C135_sa_shift",
    "Neorl.Compare.C135_pso_ratio",
    "Neorl.Compare.C135_ts_scale",
    "Neorl.Compare.C135_sa_scale"
   ],
   "note": "The sort of MFO and the argsort of XNES are parameters, assumed to compare only (shown for the stable sort). HCLPSO, EPSO, EDEV, NHHO, NGA, the PESA family and AEO are not covered."
  },
  {
   "property": "C136",
   "status": "proved",
   "theorems": [
    "Neorl.Units.C136_fronts",
    "Neorl.Units.C136_crowding",
    "Neorl.Units.C136_select",
    "Neorl.Units.C136_run",
    "Neorl.Units.C136_negate",
    "Neorl.Units.C136_nonlinear"
   ],
   "note": "The reported y_opt is covered in mode max only: in mode min it is stale in any units (C59). NSGA-III is not covered: C101 shows that its association depends on the offset."
  },
  {
   "property": "C137",
   "status": "proved",
   "theorems": [
    "Neorl.InitPop.C137_random",
    "Neorl.InitPop.C137_reaches",
    "Neorl.InitPop.C137_given",
    "Neorl.InitPop.C137_refuses",
    "Neorl.InitPop.C137_wrong_number",
    "Neorl.InitPop.C137_unusable",
    "Neorl.InitPop.C137_skipped_variable",
    "Neorl.InitPop.C137_strategies",
    "Neorl.InitPop.C137_speeds",
    "Neorl.InitPop.C137_end_to_end",
    "Neorl.InitPop.C137_chains",
    "Neorl.InitPop.C137_guesses_overwritten",
    "Neorl.InitPop.C137_tabu_last",
    "Neorl.InitPop.C137_tabu_tour",
    "Neorl.InitPop.C137_unchecked",
    "Neorl.InitPop.C137_second_run",
    "Neorl.InitPop.C137_surplus_entry",
    "Neorl.InitPop.C137_tour_infeasible",
    "Neorl.InitPop.C137_space",
    "Neorl.InitPop.C137_end_to_end_more",
    "Neorl.InitPop.C137_tabu_single",
    "Neorl.InitPop.C137_end_to_end_rest"
   ],
   "note": "The Latin designs of NHHO and NGA are treated with those algorithms and not repeated here. Defects: SA overwrites the list of guesses it is given (a second run with the same list starts elsewhere or fails); ACO and XNES accept guesses outside the space; JAYA and ACO skip variables of unknown type; DE, ES and PSO accept guesses with surplus entries; tabu search in swap mode ignores the bounds."
  },
  {
   "property": "C138",
   "status": "proved",
   "theorems": [
    "Neorl.Rescale.C138_same_problem",
    "Neorl.Rescale.C138_affine",
    "Neorl.Rescale.C138_scale",
    "Neorl.Rescale.C138_shift",
    "Neorl.Rescale.C138_start",
    "Neorl.Rescale.C138_origin",
    "Neorl.Rescale.C138_step_size",
    "Neorl.Rescale.C138_ants",
    "Neorl.SA.C138_move",
    "Neorl.SA.C138_annealing",
    "Neorl.SA.C138_annealing_default"
   ],
   "note": "Continuous variables only (a grid variable has no change of units). Affine changes: DE, MFO, cuckoo search, ACO, SA (with the built-in move, or any move that is rewritten with the points). Scaling only: GWO, WOA, SSA, JAYA, PSO. Shifts only: BAT. Defects: the five scaling-only optimizers, the first PSO speeds and HHO depend on where the zero of a variable lies; BAT and HHO contain jumps of a fixed absolute size."
  },
  {
   "property": "C139",
   "status": "proved",
   "theorems": [
    "Neorl.Mpi.C139_moments",
    "Neorl.Mpi.C139_distribution",
    "Neorl.Mpi.C139_zero_spread",
    "Neorl.Mpi.C139_running",
    "Neorl.Mpi.C139_running_order",
    "Neorl.Mpi.C139_floor",
    "Neorl.Mpi.C139_adam",
    "Neorl.Mpi.C139_bias_corrected",
    "Neorl.Mpi.C139_sync",
    "Neorl.Mpi.C139_drift",
    "Neorl.Mpi.C139_checked"
   ],
   "note": "Real numbers instead of float32/float64; only axis 0; Allreduce and Bcast are taken to do what MPI specifies. mpi_adam.py and mpi_running_mean_std.py import shared.tf_util, which does not exist under that name. Defects: the running standard deviation has an absolute floor of 1/10; parameters that differ between processes go unnoticed for up to a hundred updates and stay different."
  },
  {
   "property": "C140",
   "status": "proved",
   "theorems": [
    "Neorl.EnvCheck.C140_accepted",
    "Neorl.EnvCheck.C140_good_accepted",
    "Neorl.EnvCheck.C140_warn",
    "Neorl.EnvCheck.C140_nan_accepted",
    "Neorl.EnvCheck.C140_stepped_after_end",
    "Neorl.EnvCheck.C140_numpy_refused",
    "Neorl.EnvCheck.C140_first_step_only",
    "Neorl.EnvCheck.C140_warnings",
    "Neorl.EnvCheck.C140_silent"
   ],
   "note": "Python types are names, contains is a function, rendering leaves the state alone. Defects: only the first step is compared with the spaces, nan and inf refuse nothing, the environment is stepped after the end of an episode, numpy scalars are refused."
  },
  {
   "property": "C141",
   "status": "proved",
   "theorems": [
    "Neorl.Reorder.C141_same_problem",
    "Neorl.Reorder.C141_listing",
    "Neorl.Reorder.C141_rounding",
    "Neorl.Reorder.C141_minmax",
    "Neorl.Reorder.C141_ants",
    "Neorl.SA.C141_move",
    "Neorl.SA.C141_annealing"
   ],
   "note": "Every variable keeps its random draws (in the program a seeded generator hands them out in listing order, so equality is in distribution). Integer variables only with int_transform=nearest_int (PSO: continuous only; SA: any). ACO: for runs that complete. Defect: with minmax and sigmoid the repair of an integer depends on the other variables and on their order."
  },
  {
   "property": "C142",
   "status": "proved",
   "theorems": [
    "Neorl.Longer.C142_longer_de",
    "Neorl.Longer.C142_better_de",
    "Neorl.Longer.C142_longer_jaya",
    "Neorl.Longer.C142_longer_cs",
    "Neorl.Longer.C142_longer_pso",
    "Neorl.Longer.C142_longer_es",
    "Neorl.Longer.C142_continue_de",
    "Neorl.Longer.C142_continue_cs",
    "Neorl.Longer.C142_longer_aco",
    "Neorl.Longer.C142_longer_xnes",
    "Neorl.Longer.C142_lost",
    "Neorl.Longer.C142_worse"
   ],
   "note": "Same random draws in both runs. DE, JAYA and CS: integers only with int_transform=nearest_int (the annealing parameter of the other transforms depends on ngen). PSO: speed_mech constric or globw. DE better: without RL-informed individuals. Defects with witnesses: C142_lost (JAYA, PSO, GWO, WOA, SSA, MFO continued from last_pop), C142_worse (PSO timew, GWO, WOA, SSA, MFO with one more generation)."
  },
  {
   "property": "C143",
   "status": "proved",
   "theorems": [
    "Neorl.DE.C143_reads",
    "Neorl.JAYA.C143_reads",
    "Neorl.GWO.C143_reads",
    "Neorl.WOA.C143_reads",
    "Neorl.SSA.C143_reads",
    "Neorl.CS.C143_reads",
    "Neorl.ACO.C143_reads",
    "Neorl.HHO.C143_reads",
    "Neorl.BAT.C143_reads",
    "Neorl.MFO.C143_reads",
    "Neorl.ES.C143_reads",
    "Neorl.PSO.C143_reads",
    "Neorl.XNES.C143_reads",
    "Neorl.TS.C143_reads",
    "Neorl.SA.C143_reads",
    "Neorl.C143_replay",
    "Neorl.C143_adversary",
    "Neorl.C143_no_certificate",
    "Neorl.HCLPSO.C143_reads",
    "Neorl.EPSO.C143_reads",
    "Neorl.EDEV.C143_reads",
    "Neorl.NSGA.C143_reads"
   ],
   "note": "The fitness is a function (deterministic). The recorded points are the ghost log of each model (HHO: early ++ lastDives; BAT: log0 ++ log; ES: the initial population and log). SA: bounds in order. Only for runs that complete."
  },
  {
   "property": "C144",
   "status": "proved",
   "theorems": [
    "Neorl.Parallel.C144_same",
    "Neorl.Parallel.C144_error",
    "Neorl.Parallel.C144_fails",
    "Neorl.Parallel.C144_once",
    "Neorl.Parallel.C144_no_deadlock",
    "Neorl.Parallel.C144_ends",
    "Neorl.Parallel.C144_eval",
    "Neorl.Parallel.C144_de",
    "Neorl.Parallel.C144_pso",
    "Neorl.Parallel.C144_sa"
   ],
   "note": "joblib.Parallel is an external library: its documented behaviour (at most n_jobs calls at a time, started in the order of the list, results in that order, an exception of a call is raised) is modelled as a transition system, not its implementation. The fitness is a function of its argument: a fitness with state, or one that changes its argument, is not covered, since workers get copies. The random draws of the SA chains are given per chain; how worker processes are seeded is not modelled. DE: generation loop; PSO: generation loop, not the evaluation of the initial swarm; SA: the chains of one generation."
  },
  {
   "property": "C145",
   "status": "proved",
   "theorems": [
    "Neorl.VideoRec.C145_files",
    "Neorl.VideoRec.C145_covered",
    "Neorl.VideoRec.C145_order",
    "Neorl.VideoRec.C145_close",
    "Neorl.VideoRec.C145_complete",
    "Neorl.VideoRec.C145_no_overlap",
    "Neorl.VideoRec.C145_zero_length",
    "Neorl.VideoRec.C145_reset_cuts",
    "Neorl.VideoRec.C145_same_name",
    "Neorl.VideoRec.C145_every_other"
   ],
   "note": "A picture is represented by the step at which it is taken; the gym recorder that writes the file is not modelled. C145_zero_length, C145_reset_cuts, C145_same_name and C145_every_other are defects."
  },
  {
   "property": "C146",
   "status": "proved",
   "theorems": [
    "Neorl.ParamNoise.C146_filter",
    "Neorl.ParamNoise.C146_layers",
    "Neorl.ParamNoise.C146_episode",
    "Neorl.ParamNoise.C146_first",
    "Neorl.ParamNoise.C146_greedy",
    "Neorl.ParamNoise.C146_scale",
    "Neorl.ParamNoise.C146_threshold",
    "Neorl.ParamNoise.C146_adapts",
    "Neorl.ParamNoise.C146_no_exploration"
   ],
   "note": "A session run has no order between outputs and updates: every reading may come before or after the assignment and the theorems hold for all choices. The online network, the greedy action, the divergence and the ends of episodes are arbitrary. C146_first and C146_no_exploration state defects."
  },
  {
   "property": "C147",
   "status": "proved",
   "theorems": [
    "Neorl.Gmatmul.C147_left",
    "Neorl.Gmatmul.C147_right",
    "Neorl.Gmatmul.C147_back_left",
    "Neorl.Gmatmul.C147_back_right",
    "Neorl.Gmatmul.C147_matrices",
    "Neorl.Gmatmul.C147_refused",
    "Neorl.Gmatmul.C147_square",
    "Neorl.Gmatmul.C147_eigenvalues"
   ],
   "note": "Tensors of any number of dimensions with transposition and reshaping in row-major order. C147_matrices records that reduce_dim is ignored for two matrices, C147_square that non-square matrices fail."
  },
  {
   "property": "C148",
   "status": "proved",
   "theorems": [
    "Neorl.ConvStats.C148_convolution",
    "Neorl.ConvStats.C148_inside",
    "Neorl.ConvStats.C148_gradient",
    "Neorl.ConvStats.C148_factors",
    "Neorl.ConvStats.C148_product",
    "Neorl.ConvStats.C148_exact",
    "Neorl.ConvStats.C148_t2",
    "Neorl.ConvStats.C148_dense",
    "Neorl.ConvStats.C148_positive"
   ],
   "note": "Convolutions without padding in the format NHWC; kernels with a bias, without blockdiag_bias and channel_fac as ACKTR uses them. C148_exact states the assumptions under which the approximation is the Fisher matrix."
  },
  {
   "property": "C149",
   "status": "proved",
   "theorems": [
    "Neorl.Atari.C149_reset",
    "Neorl.Atari.C149_episode",
    "Neorl.Atari.C149_restart",
    "Neorl.Atari.C149_force",
    "Neorl.Atari.C149_input",
    "Neorl.Atari.C149_dark",
    "Neorl.Atari.C149_commute"
   ],
   "note": "The wrappers of wrap_deepmind on top of each other over an arbitrary game, all sixteen settings. Frames are grey (the conversion in WarpFrame is commented out), memory sharing of LazyFrames is left out. C149_dark is a defect."
  },
  {
   "property": "C150",
   "status": "proved",
   "theorems": [
    "Neorl.TrajSeg.C150_segments",
    "Neorl.TrajSeg.C150_cover",
    "Neorl.TrajSeg.C150_horizon",
    "Neorl.TrajSeg.C150_episode",
    "Neorl.TrajSeg.C150_stop",
    "Neorl.TrajSeg.C150_errors"
   ],
   "note": "A yielded dictionary is modelled by its values at the yield; in the code the arrays are reused for the next segment. Environment, policy, reward giver and callback are parameters."
  },
  {
   "property": "C151",
   "status": "proved",
   "theorems": [
    "Neorl.GATune.C151_int",
    "Neorl.GATune.C151_int_ok",
    "Neorl.GATune.C151_float",
    "Neorl.GATune.C151_grid",
    "Neorl.GATune.C151_grid_reach",
    "Neorl.GATune.C151_grid_float",
    "Neorl.GATune.C151_each",
    "Neorl.GATune.C151_frozen",
    "Neorl.GATune.C151_direction"
   ],
   "note": "The powers of the polynomial step are parameters except in C151_direction. The class GATUNE is not reached from scripts.py. C151_int, C151_frozen and C151_grid_float are defects."
  },
  {
   "property": "C152",
   "status": "proved",
   "theorems": [
    "Neorl.AEO.C152_sizes",
    "Neorl.AEO.C152_given",
    "Neorl.AEO.C152_dropped",
    "Neorl.AEO.C152_run",
    "Neorl.AEO.C152_names"
   ],
   "note": "The sizes of the optimizers and the sampled positions are parameters; how the populations evolve and exchange individuals is in C40-C42."
  },
  {
   "property": "C153",
   "status": "proved",
   "theorems": [
    "Neorl.LogConf.C153_open",
    "Neorl.LogConf.C153_scope",
    "Neorl.LogConf.C153_closed",
    "Neorl.LogConf.C153_reset",
    "Neorl.LogConf.C153_unknown",
    "Neorl.LogConf.C153_ranks",
    "Neorl.LogConf.C153_shared",
    "Neorl.LogConf.C153_default",
    "Neorl.LogConf.C153_files",
    "Neorl.LogConf.C153_leak"
   ],
   "note": "Opening a file for writing empties it; what the formats write is in C117."
  },
  {
   "property": "C154",
   "status": "proved",
   "theorems": [
    "Neorl.MakeEnv.C154_vec",
    "Neorl.MakeEnv.C154_distinct",
    "Neorl.MakeEnv.C154_atari",
    "Neorl.MakeEnv.C154_mujoco"
   ],
   "note": "The environments are arbitrary; what seeding does to the environments of this package is in C134."
  },
  {
   "property": "C155",
   "status": "proved",
   "theorems": [
    "Neorl.Ortho.C155_dense",
    "Neorl.Ortho.C155_conv",
    "Neorl.Ortho.C155_signal",
    "Neorl.Ortho.C155_shapes"
   ],
   "note": "Exact arithmetic; numpy's reduced singular value decomposition is assumed to give factors of the documented shapes with orthonormal columns and rows. The conversion to float32 is left out."
  },
  {
   "property": "C156",
   "status": "proved",
   "theorems": [
    "Neorl.ConvLayer.C156_bias",
    "Neorl.ConvLayer.C156_width",
    "Neorl.ConvLayer.C156_refused",
    "Neorl.ConvLayer.C156_filters"
   ],
   "note": "tf.nn.conv2d is a parameter promised to give four dimensions with the filters as channels (its values are in the model ConvStats); broadcasting is modelled."
  }
 ]
}