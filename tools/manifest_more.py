L="SBayes.Lik."; K="SBayes.Cache."
def N(p,status,ns,theorems,note=""):
    M(p,status," ".join(ns+t for t in theorems.split()),note)
N("C04","proved",K,"C04_cached_likelihood_equals_recomputed C04_cached_likelihood_is_the_specified_one")
N("C05","partial",K,"C05_false C05_uncached_likelihood_always_right_partial",
  "False of the code (C05_false: whole-array edit() leaves group versions unchanged). Partial: evaluation without caching is right after every history.")
N("C06","proved",K,"C06_size_prior_cache_is_sound C06_source_prior_cache_is_sound C06_confounding_effect_prior_cache_is_sound")
N("C07","partial",K,"C07_false C07_geo_prior_is_frozen C07_geo_prior_partial",
  "False of the code (C07_false: the node has no inputs). Partial: uncached evaluation, evaluation after clear, cluster-independent geo-prior.")
N("C08","proved",L,"C08_normalized_weights_are_distribution")
N("C09","proved",L,"C09_component_likelihood_is_specified C09_incremental_update_is_specified")
N("C10","proved",L,"C10_sources_marginalise_to_mixture C10_assignments_are_the_onehot_sources")
N("C11","proved",L,"C11_missing_observations_are_neutral C11_missing_observations_are_neutral_source C11_unobserved_effects_are_irrelevant")
R="SBayes.Prior."
M("C12","proved",L+"C12_cluster_labels_are_exchangeable "+R+"C12_size_prior_is_exchangeable "+R+"C12_geo_prior_is_exchangeable")
N("C13","proved",R,"C13_multinom_counts_placements C13_multinom_factorials C13_multinom_symmetric C13_binom")
N("C14","proved",R,"C14_uniform_size_prior C14_total_mass")
N("C15","partial",R,"C15_probability_functions C15_geo_prior_decreases_with_cost C15_geo_prior_mean_decreases_with_cost_partial C15_geo_prior_sign C15_any_minimum_spanning_tree C15_mean_false",
  "Proved for sum and max; false of the code for mean (C15_mean_false: zero-cost edges are dropped from the mean), partial for mean with positive costs.")

Q="SBayes.Clusters."; MH="SBayes.MH."
N("C16","proved",Q,"C16_alterCluster_keeps_constraints C16_gibbsish_keeps_constraints C16_gibbsish2_keeps_constraints")
N("C17","proved",Q,"C17_alterCluster_reports_real_masses")
N("C18","proved",Q,"C18_alterCluster_detailed_balance C18_alterCluster_stationary")
N("C19","proved",MH,"C19_tempered_accept_event C19_accept_event C19_real_masses_give_detailed_balance C19_posterior_is_stationary")
N("C20","proved",Q,"C20_gibbsish_reports_real_masses C20_gibbsish2_reports_real_masses C20_gibbsish_reports_real_masses_from_prior C20_gibbsish_detailed_balance C20_cluster_posterior_is_the_same_both_ways")
N("C45","proved",Q,"C45_get_neighbours C45_neighbours_are_free")
N("C50","proved",Q,"C50_resampling_sources_keeps_masses_real C50_source_posterior_is_a_local_law C50_cluster_operators_with_sources_detailed_balance C50_every_clustering_has_possible_sources")

W="SBayes.Source."
N("C21","proved",W,"C21_sources_always_applicable")
N("C22","proved",W,"C22_inverse_cdf C22_probability C22_never_impossible C22_binary_encoding C22_short_cdf_falls_back_to_zero")
N("C23","proved",W,"C23_full_conditional C23_source_posterior_is_invariant C23_operator_uses_full_conditional")

X="SBayes.Effects."
N("C24","proved",X,"C24_weights_stay_on_the_simplex C24_weights_stay_positive C24_features_accept_independently")
N("C25","proved",X,"C25_two_states_change C25_effects_stay_distributions")
N("C26","proved",X,"C26_cluster_effect_full_conditional C26_confounding_effect_full_conditional C26_counts")
N("C51","proved",X,"C51_alter_weights_stationary C51_alter_effect_stationary")
N("C52","proved",X,"C52_gibbs_weights_stationary C52_accept_event")

Y="SBayes.MCMC."
N("C27","proved",Y,"C27_accept_or_keep C27_books C27_contract_needed C27_accept_probability")
N("C28","proved",Y,"C28_rows C28_at_most_the_requested_rows C28_single_step_crashes")
N("C29","partial",Y,"C29_operator_rate C29_rate_false C29_rate_partial",
  "Proved for the operators' rates; the chain-level rate divides accepts by logged samples, so it is not a fraction of the steps (C29_rate_false); C29_rate_partial bounds it by steps per sample.")
N("C32","proved",Y,"C32_normalized_weights C32_family_frequencies C32_needs_a_confounder")
N("C33","proved",Y,"C33_best_chain")
N("C53","proved",Y,"C53_real_masses_give_invariance C53_run_leaves_posterior_invariant")

I="SBayes.Init."
N("C30","proved",I,"C30_initial_clusters C30_initial_clusters_valid C30_may_give_up C30_one_cluster_is_always_found C30_succeeds_among_neighbours")
N("C31","proved",I,"C31_initial_weights C31_group_effect C31_initial_effects")
N("C54","proved","SBayes.Run.","C54_states_of_a_run_are_well_formed C54_likelihood_is_positive")

L="SBayes.Log."
N("C34","proved",L,"C34_statistics_file C34_columns_have_distinct_names C34_writing_never_raises C34_closing_without_samples_raises C34_shared_name_false C34_old_files_stay_until_the_first_sample")
N("C35","proved",L,"C35_cluster_round_trip C35_line_round_trip C35_file_round_trip C35_no_clusters_false",
  "For at least one cluster; without clusters the reader invents one (C35_no_clusters_false).")
N("C36","proved",L,"C36_best_permutation C36_same_best_relabelling_in_both_files")
N("C37","proved",L,"C37_burn_in")
N("C38","partial",L,"C38_names_recovered_partial C38_underscore_in_feature_false C38_underscore_in_group_false C38_reserved_confounder_false C38_confounder_areal_false C38_no_clusters",
  "The full statement is false of the code: names with '_' or a confounder named like a statistics column are not recovered. Proved for all names without these.")
N("C55","proved",L,"C55_results_are_the_logged_samples")

D="SBayes.Data."
N("C39","partial",D,"C39_encoded_value C39_encoded_missing C39_encoding_injective C39_na_number C39_loading_succeeds_iff C39_applicable_states_partial C39_applicable_states_false",
  "Encoding, decoding and the count of missing values are proved for all tables; the flags of applicable states only for state tables without gaps (C39_applicable_states_false).")
N("C40","proved",D,"C40_groups C40_partition C40_universal C40_loading_succeeds_iff")
N("C41","partial",D,"C41_entry C41_entries C41_symmetric_partial C41_order_irrelevant C41_loading_succeeds_iff C41_symmetric_false",
  "Nearly symmetric cost files are not symmetrised (C41_symmetric_false); everything else is proved for all files.")
N("C42","proved",D,"C42_scale_counts")
N("C56","partial",D,"C56_clusters C56_groups_partial C56_groups_of_the_canvas C56_groups_missing_false",
  "Sites without an entry form a group of their own (C56_groups_missing_false).")
N("C57","proved",D,"C57_row_order_irrelevant C57_whitespace_irrelevant C57_row_alignment")
N("C58","partial",D,"C58_extracted_states_fit_partial C58_extracted_states_fit_false",
  "False for cells of white space only (C58_extracted_states_fit_false); proved for all other files.")
N("C59","partial",D,"C59_empirical_prior_partial C59_empirical_prior_false C59_counts C59_limited_counts",
  "The reader adds 1 to the c0 the tool has already added (C59_empirical_prior_false); the exact concentration is proved.")

F="SBayes.Config."
N("C43","proved",F,"C43_paths C43_set_defaults C43_idempotent C43_update C43_iter_items")
N("C44","proved",F,"C44_each_pair_once C44_count C44_files_differ C44_no_shared_file C44_run_config C44_open_paths C44_repeated_false C44_custom_settings_lost",
  "For lists of cluster numbers without repetition. Also shown: custom_settings given to main do not reach the runs.")

U="SBayes.Util."
N("C46","proved",U,"C46_normalize C46_normalize_axis0 C46_idempotent C46_mle C46_assign_na")
N("C47","partial",U,"C47_linear_rescale_partial C47_only_if_same_end C47_linear_rescale_false",
  "False of the code: it maps the ends correctly exactly when the two ranges end at the same value (C47_only_if_same_end).")
N("C48","partial",U,"C48_round_single_int C48_up_moves_multiples C48_round_multiple_ints C48_round_multiple_ints_false C48_round_int C48_round_int_close C48_digits C48_round_int_false",
  "round_single_int for all numbers, round_multiple_ints for positive numbers (C48_round_multiple_ints_false); round_int raises when rounding up above the offset (C48_round_int_false), its exact domain is proved.")
N("C60","proved",U,"C60_max_size_list")
N("C61","proved",U,"C61_n_smallest_idx C61_ties_false C61_bounding_box")

S="SBayes.Sim."
N("C62","proved",S,"C62_simulated_data_follow_likelihood C62_likelihood_is_normalised")
N("C63","proved",S,"C63_states_per_feature C63_effect_row")
N("C64","proved",S,"C64_written_files_load")

Q="SBayes.Posterior."
N("C65","proved",Q,"C65_reference_model_agrees C65_values_differ","The constant is not 1 (C65_values_differ): the reference model counts Gamma(number of states) for each uniform confounding effect.")
N("C66","partial",Q,"C66_uncached_posterior C66_cached_posterior_up_to_geo C66_cached_posterior_partial C66_model_call_is_a_history C66_source_must_match_configuration C66_cached_posterior_false",
  "Without caching for every history; with caching the result is off by exactly (cached geo-prior - current geo-prior), which is 0 if the geo-prior is uniform; false otherwise (C66_cached_posterior_false), because the geo-prior node has no inputs (C07).")

N("C67","partial","SBayes.Clusters.","C67_cluster_posterior_is_the_membership_posterior_partial C67_missing_features_false",
  "Proved for objects without missing features; false otherwise (C67_missing_features_false): the cluster component has likelihood 0 instead of 1 for missing features. The proposal is still reversible (C20).")

N("C68","partial","SBayes.Sampler.","C68_caches_are_unobservable_partial C68_self_checks_pass C68_self_check_of_the_prior C68_geo_prior_is_frozen_at_the_first_sample C68_geo_prior_has_no_influence C68_self_check_fails",
  "Proved for geo-priors that do not depend on the clusters (type uniform). For the others the code falsifies it: without self-checks the geo-prior stays what it was at the first sample, after step 1000 it has no influence at all, and when sampling from the prior the self-check fails (C68_self_check_fails).")

N("C69","partial","SBayes.Sampler.","C69_log_is_the_log_of_the_ideal_run_partial C69_logging_does_not_change_the_step C69_logged_prior_false",
  "Proved for geo-priors that do not depend on the clusters; false of the code otherwise (C69_logged_prior_false), because of the stale geo-prior (C07).")

N("C70","proved","SBayes.Post.","C70_rank C70_rank_exists C70_match_clusters_false",
  "argsort is modelled by its contract (any sorting permutation). C70_match_clusters_false records a finding about the sibling function match_clusters: it raises on every input.")
N("C71","partial","SBayes.Post.","C71_dic_partial C71_dic_none C71_dic_order C71_dic_false",
  "The code has the wrong sign in one term: the result is the criterion minus four times the best log-likelihood. Witness C71_dic_false: two runs that are put in the wrong order.")

N("C72","partial","SBayes.Plot.","C72_burn_in_partial C72_burn_in_zero C72_burn_in_false",
  "No burn-in sample is ever used, but the code discards twice: once on loading (burn-in of the map) and again in every plot (C72_burn_in_false).")
N("C73","proved","SBayes.Plot.","C73_consensus_map C73_consensus_map_gabriel C73_consensus_map_exists C73_density_map C73_weight_le C73_gabriel C73_gabriel_keeps",
  "scipy's triangulation is an arbitrary symmetric loop-free graph with at least one edge. Gabriel edges with the code's tolerance of a thousandth of the radius.")
N("C74","partial","SBayes.Plot.","C74_cells C74_slices_sum C74_slices C74_pies_partial C74_label_partial C74_single_row_false C74_label_false",
  "Proved for grids with at least two rows and columns and for names without both blank and dash; false of the code otherwise (witnesses).")
N("C75","proved","SBayes.Plot.","C75_entries C75_table", "For a table with at least one entry and one column.")
N("C76","partial","SBayes.Plot.","C76_legend_partial C76_legend_false",
  "The code sorts the likelihoods but not the labels; right only if the clusters are already ranked.")

N("C77","proved","SBayes.Sampler.","C77_contributions_of_single_clusters C77_contributions_follow_the_matching",
  "Model of the single-cluster sample built by the logger and its evaluation by the cached model.")
N("C78","partial","SBayes.Log.","C78_file_reads_back C78_file_determines_counts C78_totals_count_the_steps C78_names_distinct_iff C78_row_names_false",
  "All but the names: rows carry the class name of the operator, so the operators of two or more confounders have equal names (C78_row_names_false; C78_names_distinct_iff says exactly when names are distinct).")
N("C79","partial","SBayes.Log.","C79_interrupted_run C79_uninterrupted_run C79_loading_an_interrupted_run C79_incomplete_line_is_noticed C79_same_number_of_samples_false C79_operator_statistics_kept_false",
  "Proved for the text files of statistics and clusters. Not true: equal numbers of samples (the last row can lack its clusters, unnoticed on loading), and keeping the operator statistics (the file is truncated before it is rewritten). The HDF5 file is not modelled.")

N("C80","proved","SBayes.Kernel.","C80_sampler_leaves_posterior_invariant C80_sampler_without_sources_leaves_posterior_invariant C80_density_with_sources C80_density_without_sources",
  "Measure-theoretic: draws have their continuous laws (Dirichlet as normalised Gammas, Beta, uniform), the state is distributed over discrete and simplex-valued parameters. Requires a proper set-up (WellPosed: every observation applicable, every object in some group of some confounder, disjoint groups, positive concentrations, a well-defined geo-prior); without sources also two applicable states per feature. The posterior is evaluated without caches (C66, C68).")
N("C81","proved","SBayes.Kernel.","C81_posterior_is_proper C81_normalized_posterior_is_invariant C81_normalized_posterior_is_invariant_without_sources",
  "Same set-up as C80.")

N("C82","proved","SBayes.Clusters.","C82_alterCluster_reaches_every_configuration C82_gibbsish_reaches_every_configuration C82_gibbsish2_reaches_every_configuration C82_alterCluster_fixed_size_false C82_only_neighbours_false",
  "The conditions are part of the statement; the two _false theorems show that they are needed.")

N("C83","proved","SBayes.Kernel.","C83_posterior_is_the_only_equilibrium",
  "Same set-up as C80, with sources. Distributions with a density: those for which states of posterior zero have probability zero.")
N("C84","proved","SBayes.Kernel.","C84_sampling_never_fails",
  "Same set-up as C80, with sources. An exception of a draw is modelled as missing probability mass. Floating-point rounding is not modelled.")
N("C85","proved","SBayes.Kernel.","C85_averages_converge C85_frequencies_converge",
  "Same set-up as C83 (sources, all operators in use, K*min_size < number of objects). Convergence in probability; for all later times at once see C114; rates are not claimed. The loop of generate_samples is modelled with its log (Model/SampleLoop.lean).")
N("C86","proved","SBayes.Validate.","C86_accepted_configurations_are_valid C86_settings_are_those_of_the_file C86_unknown_settings_are_rejected C86_confounding_priors_are_those_of_the_file C86_custom_settings_come_first C86_without_custom_settings C86_update_with_nothing C86_required_despite_default C86_documented_configurations_are_accepted C86_no_in_quotes",
  "pydantic's validators are modelled from their documentation (version 1); reading of YAML/JSON, the existence of files and the conversion between strings and numbers are parameters. A string such as sample_source: 'no' is truthy for validate_operators: the frequency of the source operator is then not set to 0 (without effect, get_operators ignores it).")
N("C87","proved","SBayes.Build.","C87_run_is_what_the_inputs_say C87_runs_iff C87_run_is_well_posed C87_samples_approach_the_posterior C87_configured_runs_converge C87_accepted_configurations_may_not_run",
  "The network of the objects (Delaunay triangulation, distances), scipy's spanning trees, pandas' conversions and the contents of files are parameters. What the run says about states assumes a state table without gaps (see C39). C87_accepted_configurations_may_not_run lists accepted configurations that fail for all data.")
N("C88","proved","SBayes.Kernel.","C88_runs_from_any_start C88_averages_converge_from_any_start C88_whole_run_converges C88_whole_run_frequencies C88_whole_run_succeeds C88_main_run_continues C88_warm_up_returns_the_best",
  "Strengthens C85: no density with respect to the posterior is needed for the start. The draws for the initial clusters are an arbitrary stream (only required not to end in the ValueError of generate_initial_clusters); the theorems hold for each of them. Convergence in probability (for all later times at once see C114); rates are not claimed (the weight operator is an independence sampler with unbounded importance ratio).")
N("C89","proved","SBayes.Kernel.","C89_posterior_is_the_only_equilibrium C89_sampling_never_fails C89_averages_converge C89_frequencies_converge C89_fixed_size_false",
  "The counterpart of C83-C85 for sample_source: false. The conditions are those of CanMove (Spec/NoSource.lean); C89_fixed_size_false shows that the condition on sizes is needed. Starts must have a density with respect to the posterior.")
N("C90","proved","SBayes.Kernel.","C90_runs_from_any_start C90_averages_converge_from_any_start C90_whole_run_converges C90_whole_run_frequencies C90_whole_run_succeeds C90_main_run_continues",
  "The counterpart of C88 for sample_source: false, under the conditions of CanMove (see C89) for convergence; only a feature and two applicable states per feature are needed not to fail. Convergence in probability; rates are not claimed.")
N("C91","proved","SBayes.Kernel.","C91_density_with_sources C91_density_without_sources C91_leaves_prior_invariant C91_prior_is_the_only_equilibrium C91_runs_from_any_start C91_whole_run_converges C91_whole_run_succeeds C91_runs_from_any_start_without_sources C91_whole_run_converges_without_sources C91_whole_run_succeeds_without_sources C91_clusters_are_independent_of_effects C91_cluster_frequencies C91_cluster_frequencies_without_sources C91_cluster_prior_is_a_distribution",
  "Prior evaluated without caches; with the cached evaluation a cost-based geo-prior is stale in this mode (C07, C68). The initial effects are computed from the data in this mode too (they do not influence the limit). GibbsSampleWeights takes no flag, it only depends on the sources.")
N("C92","proved","SBayes.Kernel.","C92_same_posterior C92_same_answer",
  "For the two modes of the same configuration (withSampling); convergence under the conditions of C88 and C90.")
N("C93","proved","SBayes.Kernel.","C93_loaded_fractions_converge C93_loaded_weights_converge C93_loaded_confounding_converges C93_loaded_cluster_effects_converge C93_loaded_cluster_effects_converge_no_source C93_loaded_fractions_converge_no_source C93_loaded_weights_converge_no_source C93_loaded_confounding_converges_no_source",
  "Combines C88/C90 with C55. Names must satisfy GoodNames and PlainText (C38 shows why). The columns of cluster effects are relabelled sample by sample, so that one column does not estimate a fixed parameter; the theorem is about the effect of the cluster a given object is in. The likelihoods in the snapshots are arbitrary here (they are those of C69).")
N("C94","proved","SBayes.Par.","C94_each_run_as_if_alone C94_other_files_untouched C94_configuration_copied C94_parallel_equals_sequential C94_runs_end C94_log C94_text_files C94_complete_results C94_default_name C94_same_name_iff_same_minute C94_same_minute_keeps_results_false","Processes are trees of reads and file operations; schedules are arbitrary lists of process numbers. Hypotheses: no number of clusters is repeated (C44_repeated_false shows why), configuration and data are not in the results directory, the configuration file is not called experiment.log. A message of the log is one operation. The last theorem is a finding: the default name has a resolution of a minute and an existing directory is reused without a warning, so the first of two experiments of one minute is overwritten.")
N("C95","partial","SBayes.Gen.","C95_runs_of_one_process_are_independent C95_runs_of_spawned_processes_are_independent C95_runs_of_one_forked_process_are_independent C95_forked_processes_draw_the_same_numbers C95_forked_runs_have_the_same_first_operator C95_runs_of_forked_processes_are_independent_false","Runs are well-founded trees of draws from two generators with independent numbers of an arbitrary law on a countable set. Full claim false for pools started with fork (finding: cli.main does not seed numpy in the processes of the pool): the last theorem. The semantics of fork and spawn with respect to the generators of numpy and `random` is part of the trusted base. Which process executes which runs does not depend on the numbers.")
N("C96","partial","SBayes.Simplex.","C96_corners_after_other_plots C96_similar_to_a_new_plot C96_same_call_same_figure_false C96_samples_in_the_polygon C96_nothing_is_cut_off C96_corner_is_certainty C96_labels C96_mean C96_position_determines_three_weights C96_position_determines_weights_false C96_weights_of_two_components_false C96_outside_is_hidden","Real arithmetic; the estimation of the density and the drawing itself are not modelled. Findings: `plot_preference` changes the cached array of `get_corner_points` (xy *= 1.2), so that a repeated plot is larger; `plot_weight` raises with one confounder; four or more components are not determined by the position.")
N("C97","partial","SBayes.PlotMain.","C97_plots_made C97_settings C97_map_for_a_threshold C97_weight_settings_used_false C97_only_if_in_the_file_false C97_types_as_texts_false C97_without_arguments_false C97_map_for_each_threshold_false","The plot functions themselves are assumed to end without an exception. Full claim false: weights (key `weights_plot` asked for, `weight_plot` used and in the defaults) and several thresholds (findings).")
N("C98","partial","SBayes.PlotMain.","C98_files_of_the_same_run C98_model_name C98_models C98_dic_plot C98_missing_file_noticed_false C98_different_depths_false C98_same_names_false C98_number_zero_false","Full claim false without the hypotheses on the files (findings: files are paired by position after sorting). Reading of the files: C37, C55; the value of the DIC: C71.")
N("C99","partial","SBayes.WholeMap.","C99_map_is_made C99_extent C99_all_objects_are_shown C99_colors C99_marked C99_marked_once C99_lines C99_labels C99_legend C99_table C99_numbers_on_the_map_are_in_the_table C99_marked_once_default_false C99_more_than_256_clusters_false C99_in_cluster_labels_false C99_density_table_false","Base map, overview map, projection, line widths and styles are not modelled; which lines are drawn is C73, the layout of the table C75. Findings: with the default threshold 0.5 (and >=) an object can be marked for two clusters; the colour map has 256 entries; the table of a density map is in the colour of cluster 1; no labels with `in_cluster` if languages are not labelled.")
N("C100","proved","SBayes.Reorder.","C100_posterior_does_not_depend_on_the_order C100_posterior_distribution C100_posterior_distribution_no_source C100_whole_run_converges C100_whole_run_converges_no_source","Exact arithmetic: sums of floating point numbers in another order differ by rounding.")
N("C101","proved","SBayes.SimRun.","C101_joint_law C101_is_probability C101_simulation_is_the_model C101_credible_sets_are_calibrated C101_calibrated_with_sources C101_every_canvas_works","Draws of numpy's generators are assumed independent with the laws they document. The analysis is told all states of a feature that the simulation can produce (the written states file lists only those that occur, C64), and its priors match: the model knows only uniform priors for weights and cluster effects, so only intensity 1 and concentration 1 match there.")
N("C102","partial","SBayes.SimConfig.","C102_required_fields C102_values_kept C102_loads C102_own_states_partial C102_own_shares C102_default_shares_stay C102_own_states_false C102_files_partial C102_default_path_false","The numbers of states are the user's only if the user names all of 2, 3 and 4 states; for the others the default shares stay in force (C102_default_shares_stay, C102_own_states_false). The data are written to the results directory only if a path is given (C102_default_path_false).")
N("C103","proved","SBayes.Rounding.","C103_component_likelihoods_are_exact C103_log_likelihood_without_sources C103_log_likelihood_with_sources C103_log_source_prior C103_error_bound_for_doubles C103_mh_ratio_error C103_decision_changes_rarely","Standard model of floating point arithmetic: every operation has relative error at most u, the logarithm at most v; adding 0 and multiplying by 1 is exact; no overflow or underflow.")
N("C104","partial","SBayes.Rounding.","C104_excluded_component_is_never_drawn C104_first_component_needs_total_below_one C104_rounded_draw_rarely_differs C104_gibbs_source_draw C104_bound_for_doubles C104_outsider_gets_cluster_source_false","The full claim is false: for an object outside of all clusters with three confounders of weights 4, 1, 1 the double precision probabilities add up to 1 - 2^-53, and the draw 1 - 2^-53 selects the cluster effect (C104_outsider_gets_cluster_source_false, for IEEE doubles rounded to nearest). Such a sample has likelihood 0, and the Gibbs step accepts it.")
N("C105","partial","SBayes.Double.","C105_certain_member_has_probability_one C105_shrinking_a_certain_cluster_raises C105_underflow_raises C105_doubtful_member_has_probability_below_one C105_shrink_draws_partial C105_grow_draws_partial C105_shrinking_raises_false C105_many_features_raise_false","The full claim is true in exact arithmetic (C20) and false in IEEE doubles: with 56 to 500 features of probability 3/4 inside and 1/4 outside of the cluster, shrinking a cluster of any number of such objects raises a ValueError; with 1075 or more features the likelihood of an object underflows. C105_shrink_draws_partial, C105_grow_draws_partial: sufficient conditions under which an object is drawn.")
N("C106","partial","SBayes.Double.","C106_certain_object_is_never_added C106_certain_object_blocks_the_cluster C106_doubtful_object_can_be_added_partial C106_doubtful_objects_can_be_redrawn_partial C106_last_object_is_never_added_false","False in IEEE doubles (C106_last_object_is_never_added_false: 56 to 500 features of probability 3/4 inside, 1/4 outside of the cluster, any number of objects). C106_doubtful_object_can_be_added_partial: for objects at most 2^50 times as likely inside, the growing step is decided by the usual Metropolis-Hastings comparison with positive probabilities; C106_doubtful_objects_can_be_redrawn_partial: under the same bounds for all available objects every admissible cluster is proposed by the redrawing operator for a box of random numbers with interior, and decided by the same comparison.")
N("C107","partial","SBayes.Settings.","C107_skeleton_is_ignored C107_skeleton_false C107_grow_to_adjacent_is_ignored C107_grow_to_adjacent_is_passed_on C107_grow_to_adjacent_favours_neighbours C107_warmup_settings_are_ignored C107_warmup_limits_false","False for skeleton (C107_skeleton_false: complete graph -N(N-1)/2, evaluated -(N-1)), for grow_to_adjacent with source sampling and for the warm-up limits (C107_warmup_limits_false). Proved: the value of grow_to_adjacent reaches the setup (C107_grow_to_adjacent_is_passed_on) and without source sampling it strictly favours neighbours.")
N("C108","partial","SBayes.Missing.","C108_given_costs_partial geoPrior_fin C108_given_costs_are_read C108_missing_cells_are_accepted C108_missing_pairs_contribute_nothing C108_unreachable_objects_are_free C108_unreachable_object_is_free C108_infinite_cost_is_preferred_false exists_minForest C108_three_objects","False for missing and infinite costs (C108_infinite_cost_is_preferred_false: 1000 gives -1000, inf gives 0). Proved for finite costs in all cells: same file reader and same prior as in C41 and C15; and exactly what missing costs do: accepted iff the names fit, pairs without a cost contribute nothing, an unreachable object does not change what is aggregated. -inf is not modelled.")
N("C109","proved","SBayes.Data.","C109_concentrations C109_usable_iff_complete C109_fails_iff_text C109_gives_unique C109_repeated_features_are_reported_false","For tables with pairwise different column names (pandas renames repeated ones) and names that pandas does not take for numbers. C109_repeated_features_are_reported_false is a finding, not part of the claim.")
N("C110","partial","SBayes.SetupLog.","C110_log_determines_setup_partial C110_log_shows_settings C110_log_determines_priors_false","Missing: parameters and files of Dirichlet priors and the switch sample_from_prior are not in the log (C110_log_determines_priors_false, for configurations that are accepted).")
N("C111","proved","SBayes.Sampler.","C111_likelihood_file C111_no_file_when_sampling_from_the_prior C111_missing_observations C111_assumption_is_needed","The run is an inductive relation over the modelled start, step and screen output, with any geo-prior (no constancy assumption, unlike C69). The single-precision conversion of the file is an arbitrary function in the model; the sum of logarithms is stated for the unrounded likelihoods.")
N("C112","proved","SBayes.Validate.","C112_completed_template C112_placeholders_are_rejected C112_placeholders_of_the_template C112_optional_lines_must_be_edited","The path of the results is `results` in the template and `./results` by default: the same directory; the model does not normalise paths. generate_template, which produced the file, is not modelled.")
N("C113","partial","SBayes.PlotConfig.","C113_values_kept C113_projection_partial C113_projection_unset C113_projection_false C113_labels C113_paths C113_loads C113_required_false C113_single_path C113_single_path_false","The projection of the data is used for the map only if the user sets an empty projection for the map (C113_projection_unset, C113_projection_false). Missing files are not noticed (C113_required_false), and a single path is read as one file per character (C113_single_path, C113_single_path_false).")
N("C114","proved","SBayes.Kernel.","C114_averages_settle C114_whole_run_settles C114_whole_run_frequencies_settle C114_averages_settle_without_sources C114_whole_run_settles_without_sources C114_whole_run_frequencies_settle_without_sources","The strong law of large numbers in its finite form (a bound, uniform in the length of the run, on the probability that some later average is off). Same set-up as C88 and C90. No rate is claimed: n0 depends on the data, the function, the start, the tolerance and the probability.")
N("C115","proved","SBayes.Kernel.","C115_posterior_is_symmetric C115_posterior_is_symmetric_without_sources C115_unmatched_frequencies_agree C115_unmatched_frequencies_agree_without_sources","About the samples before the loggers match the clusters; what the loggers write is C36, C55 and C93.")
N("C116","proved","SBayes.Kernel.","C116_sizes_are_uniform C116_sizes_are_uniform_without_sources","Ties C13, C14 and C91 together. The vector of sizes is that of the numbered clusters.")
N("C117","proved","SBayes.Kernel.","C117_assignments_are_uniform C117_assignments_are_uniform_without_sources","The counterpart of C116 for uniform_area.")
N("C118","proved","SBayes.Kernel.","C118_quadratic_frequencies C118_quadratic_frequencies_without_sources","For min size at least 1: the logarithm of an empty cluster's squared size is minus infinity (WellPosed.nonempty).")
N("C119","proved","SBayes.Kernel.","C119_weights_and_effects_are_uniform C119_weights_and_effects_are_uniform_without_sources","The shares of the areal effect are uniform before any data are seen, also when sources are sampled.")
N("C120","proved","SBayes.Kernel.","C120_all_parameters_follow_the_prior C120_all_parameters_follow_the_prior_without_sources","Joint version of C91, C117 and C119, with the Dirichlet laws of the confounding effects made explicit.")
