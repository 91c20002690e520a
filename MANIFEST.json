{
 "claims": [
  {
   "property": "C01",
   "status": "proved",
   "theorems": [
    "SBayes.Heap.C01_copies_are_independent_values",
    "SBayes.Heap.C01_no_interference"
   ],
   "note": ""
  },
  {
   "property": "C02",
   "status": "partial",
   "theorems": [
    "SBayes.Heap.C02_group_counters_independent_partial",
    "SBayes.Heap.C02_false"
   ],
   "note": "False in general (C02_false): set_value on a grouped copy leaves the counters aliased. Partial: histories without set_value on grouped parameters."
  },
  {
   "property": "C03",
   "status": "proved",
   "theorems": [
    "SBayes.Heap.C03_version_counts_completed_mutations",
    "SBayes.Heap.C03_equal_version_equal_value",
    "SBayes.Heap.C03_aborted_edit_changes_value_silently"
   ],
   "note": ""
  },
  {
   "property": "C49",
   "status": "proved",
   "theorems": [
    "SBayes.Heap.C49_values_are_write_protected"
   ],
   "note": ""
  },
  {
   "property": "C04",
   "status": "proved",
   "theorems": [
    "SBayes.Cache.C04_cached_likelihood_equals_recomputed",
    "SBayes.Cache.C04_cached_likelihood_is_the_specified_one"
   ],
   "note": ""
  },
  {
   "property": "C05",
   "status": "partial",
   "theorems": [
    "SBayes.Cache.C05_false",
    "SBayes.Cache.C05_uncached_likelihood_always_right_partial"
   ],
   "note": "False of the code (C05_false: whole-array edit() leaves group versions unchanged). Partial: evaluation without caching is right after every history."
  },
  {
   "property": "C06",
   "status": "proved",
   "theorems": [
    "SBayes.Cache.C06_size_prior_cache_is_sound",
    "SBayes.Cache.C06_source_prior_cache_is_sound",
    "SBayes.Cache.C06_confounding_effect_prior_cache_is_sound"
   ],
   "note": ""
  },
  {
   "property": "C07",
   "status": "partial",
   "theorems": [
    "SBayes.Cache.C07_false",
    "SBayes.Cache.C07_geo_prior_is_frozen",
    "SBayes.Cache.C07_geo_prior_partial"
   ],
   "note": "False of the code (C07_false: the node has no inputs). Partial: uncached evaluation, evaluation after clear, cluster-independent geo-prior."
  },
  {
   "property": "C08",
   "status": "proved",
   "theorems": [
    "SBayes.Lik.C08_normalized_weights_are_distribution"
   ],
   "note": ""
  },
  {
   "property": "C09",
   "status": "proved",
   "theorems": [
    "SBayes.Lik.C09_component_likelihood_is_specified",
    "SBayes.Lik.C09_incremental_update_is_specified"
   ],
   "note": ""
  },
  {
   "property": "C10",
   "status": "proved",
   "theorems": [
    "SBayes.Lik.C10_sources_marginalise_to_mixture",
    "SBayes.Lik.C10_assignments_are_the_onehot_sources"
   ],
   "note": ""
  },
  {
   "property": "C11",
   "status": "proved",
   "theorems": [
    "SBayes.Lik.C11_missing_observations_are_neutral",
    "SBayes.Lik.C11_missing_observations_are_neutral_source",
    "SBayes.Lik.C11_unobserved_effects_are_irrelevant"
   ],
   "note": ""
  },
  {
   "property": "C12",
   "status": "proved",
   "theorems": [
    "SBayes.Lik.C12_cluster_labels_are_exchangeable",
    "SBayes.Prior.C12_size_prior_is_exchangeable",
    "SBayes.Prior.C12_geo_prior_is_exchangeable"
   ],
   "note": ""
  },
  {
   "property": "C13",
   "status": "proved",
   "theorems": [
    "SBayes.Prior.C13_multinom_counts_placements",
    "SBayes.Prior.C13_multinom_factorials",
    "SBayes.Prior.C13_multinom_symmetric",
    "SBayes.Prior.C13_binom"
   ],
   "note": ""
  },
  {
   "property": "C14",
   "status": "proved",
   "theorems": [
    "SBayes.Prior.C14_uniform_size_prior",
    "SBayes.Prior.C14_total_mass"
   ],
   "note": ""
  },
  {
   "property": "C15",
   "status": "partial",
   "theorems": [
    "SBayes.Prior.C15_probability_functions",
    "SBayes.Prior.C15_geo_prior_decreases_with_cost",
    "SBayes.Prior.C15_geo_prior_mean_decreases_with_cost_partial",
    "SBayes.Prior.C15_geo_prior_sign",
    "SBayes.Prior.C15_any_minimum_spanning_tree",
    "SBayes.Prior.C15_mean_false"
   ],
   "note": "Proved for sum and max; false of the code for mean (C15_mean_false: zero-cost edges are dropped from the mean), partial for mean with positive costs."
  },
  {
   "property": "C16",
   "status": "proved",
   "theorems": [
    "SBayes.Clusters.C16_alterCluster_keeps_constraints",
    "SBayes.Clusters.C16_gibbsish_keeps_constraints",
    "SBayes.Clusters.C16_gibbsish2_keeps_constraints"
   ],
   "note": ""
  },
  {
   "property": "C17",
   "status": "proved",
   "theorems": [
    "SBayes.Clusters.C17_alterCluster_reports_real_masses"
   ],
   "note": ""
  },
  {
   "property": "C18",
   "status": "proved",
   "theorems": [
    "SBayes.Clusters.C18_alterCluster_detailed_balance",
    "SBayes.Clusters.C18_alterCluster_stationary"
   ],
   "note": ""
  },
  {
   "property": "C19",
   "status": "proved",
   "theorems": [
    "SBayes.MH.C19_tempered_accept_event",
    "SBayes.MH.C19_accept_event",
    "SBayes.MH.C19_real_masses_give_detailed_balance",
    "SBayes.MH.C19_posterior_is_stationary"
   ],
   "note": ""
  },
  {
   "property": "C20",
   "status": "proved",
   "theorems": [
    "SBayes.Clusters.C20_gibbsish_reports_real_masses",
    "SBayes.Clusters.C20_gibbsish2_reports_real_masses",
    "SBayes.Clusters.C20_gibbsish_reports_real_masses_from_prior",
    "SBayes.Clusters.C20_gibbsish_detailed_balance",
    "SBayes.Clusters.C20_cluster_posterior_is_the_same_both_ways"
   ],
   "note": ""
  },
  {
   "property": "C45",
   "status": "proved",
   "theorems": [
    "SBayes.Clusters.C45_get_neighbours",
    "SBayes.Clusters.C45_neighbours_are_free"
   ],
   "note": ""
  },
  {
   "property": "C50",
   "status": "proved",
   "theorems": [
    "SBayes.Clusters.C50_resampling_sources_keeps_masses_real",
    "SBayes.Clusters.C50_source_posterior_is_a_local_law",
    "SBayes.Clusters.C50_cluster_operators_with_sources_detailed_balance",
    "SBayes.Clusters.C50_every_clustering_has_possible_sources"
   ],
   "note": ""
  },
  {
   "property": "C21",
   "status": "proved",
   "theorems": [
    "SBayes.Source.C21_sources_always_applicable"
   ],
   "note": ""
  },
  {
   "property": "C22",
   "status": "proved",
   "theorems": [
    "SBayes.Source.C22_inverse_cdf",
    "SBayes.Source.C22_probability",
    "SBayes.Source.C22_never_impossible",
    "SBayes.Source.C22_binary_encoding",
    "SBayes.Source.C22_short_cdf_falls_back_to_zero"
   ],
   "note": ""
  },
  {
   "property": "C23",
   "status": "proved",
   "theorems": [
    "SBayes.Source.C23_full_conditional",
    "SBayes.Source.C23_source_posterior_is_invariant",
    "SBayes.Source.C23_operator_uses_full_conditional"
   ],
   "note": ""
  },
  {
   "property": "C24",
   "status": "proved",
   "theorems": [
    "SBayes.Effects.C24_weights_stay_on_the_simplex",
    "SBayes.Effects.C24_weights_stay_positive",
    "SBayes.Effects.C24_features_accept_independently"
   ],
   "note": ""
  },
  {
   "property": "C25",
   "status": "proved",
   "theorems": [
    "SBayes.Effects.C25_two_states_change",
    "SBayes.Effects.C25_effects_stay_distributions"
   ],
   "note": ""
  },
  {
   "property": "C26",
   "status": "proved",
   "theorems": [
    "SBayes.Effects.C26_cluster_effect_full_conditional",
    "SBayes.Effects.C26_confounding_effect_full_conditional",
    "SBayes.Effects.C26_counts"
   ],
   "note": ""
  },
  {
   "property": "C51",
   "status": "proved",
   "theorems": [
    "SBayes.Effects.C51_alter_weights_stationary",
    "SBayes.Effects.C51_alter_effect_stationary"
   ],
   "note": ""
  },
  {
   "property": "C52",
   "status": "proved",
   "theorems": [
    "SBayes.Effects.C52_gibbs_weights_stationary",
    "SBayes.Effects.C52_accept_event"
   ],
   "note": ""
  },
  {
   "property": "C27",
   "status": "proved",
   "theorems": [
    "SBayes.MCMC.C27_accept_or_keep",
    "SBayes.MCMC.C27_books",
    "SBayes.MCMC.C27_contract_needed",
    "SBayes.MCMC.C27_accept_probability"
   ],
   "note": ""
  },
  {
   "property": "C28",
   "status": "proved",
   "theorems": [
    "SBayes.MCMC.C28_rows",
    "SBayes.MCMC.C28_at_most_the_requested_rows",
    "SBayes.MCMC.C28_single_step_crashes"
   ],
   "note": ""
  },
  {
   "property": "C29",
   "status": "partial",
   "theorems": [
    "SBayes.MCMC.C29_operator_rate",
    "SBayes.MCMC.C29_rate_false",
    "SBayes.MCMC.C29_rate_partial"
   ],
   "note": "Proved for the operators' rates; the chain-level rate divides accepts by logged samples, so it is not a fraction of the steps (C29_rate_false); C29_rate_partial bounds it by steps per sample."
  },
  {
   "property": "C32",
   "status": "proved",
   "theorems": [
    "SBayes.MCMC.C32_normalized_weights",
    "SBayes.MCMC.C32_family_frequencies",
    "SBayes.MCMC.C32_needs_a_confounder"
   ],
   "note": ""
  },
  {
   "property": "C33",
   "status": "proved",
   "theorems": [
    "SBayes.MCMC.C33_best_chain"
   ],
   "note": ""
  },
  {
   "property": "C53",
   "status": "proved",
   "theorems": [
    "SBayes.MCMC.C53_real_masses_give_invariance",
    "SBayes.MCMC.C53_run_leaves_posterior_invariant"
   ],
   "note": ""
  },
  {
   "property": "C30",
   "status": "proved",
   "theorems": [
    "SBayes.Init.C30_initial_clusters",
    "SBayes.Init.C30_initial_clusters_valid",
    "SBayes.Init.C30_may_give_up",
    "SBayes.Init.C30_one_cluster_is_always_found",
    "SBayes.Init.C30_succeeds_among_neighbours"
   ],
   "note": ""
  },
  {
   "property": "C31",
   "status": "proved",
   "theorems": [
    "SBayes.Init.C31_initial_weights",
    "SBayes.Init.C31_group_effect",
    "SBayes.Init.C31_initial_effects"
   ],
   "note": ""
  },
  {
   "property": "C54",
   "status": "proved",
   "theorems": [
    "SBayes.Run.C54_states_of_a_run_are_well_formed",
    "SBayes.Run.C54_likelihood_is_positive"
   ],
   "note": ""
  },
  {
   "property": "C34",
   "status": "proved",
   "theorems": [
    "SBayes.Log.C34_statistics_file",
    "SBayes.Log.C34_columns_have_distinct_names",
    "SBayes.Log.C34_writing_never_raises",
    "SBayes.Log.C34_closing_without_samples_raises",
    "SBayes.Log.C34_shared_name_false",
    "SBayes.Log.C34_old_files_stay_until_the_first_sample"
   ],
   "note": ""
  },
  {
   "property": "C35",
   "status": "proved",
   "theorems": [
    "SBayes.Log.C35_cluster_round_trip",
    "SBayes.Log.C35_line_round_trip",
    "SBayes.Log.C35_file_round_trip",
    "SBayes.Log.C35_no_clusters_false"
   ],
   "note": "For at least one cluster; without clusters the reader invents one (C35_no_clusters_false)."
  },
  {
   "property": "C36",
   "status": "proved",
   "theorems": [
    "SBayes.Log.C36_best_permutation",
    "SBayes.Log.C36_same_best_relabelling_in_both_files"
   ],
   "note": ""
  },
  {
   "property": "C37",
   "status": "proved",
   "theorems": [
    "SBayes.Log.C37_burn_in"
   ],
   "note": ""
  },
  {
   "property": "C38",
   "status": "partial",
   "theorems": [
    "SBayes.Log.C38_names_recovered_partial",
    "SBayes.Log.C38_underscore_in_feature_false",
    "SBayes.Log.C38_underscore_in_group_false",
    "SBayes.Log.C38_reserved_confounder_false",
    "SBayes.Log.C38_confounder_areal_false",
    "SBayes.Log.C38_no_clusters"
   ],
   "note": "The full statement is false of the code: names with '_' or a confounder named like a statistics column are not recovered. Proved for all names without these."
  },
  {
   "property": "C55",
   "status": "proved",
   "theorems": [
    "SBayes.Log.C55_results_are_the_logged_samples"
   ],
   "note": ""
  },
  {
   "property": "C39",
   "status": "partial",
   "theorems": [
    "SBayes.Data.C39_encoded_value",
    "SBayes.Data.C39_encoded_missing",
    "SBayes.Data.C39_encoding_injective",
    "SBayes.Data.C39_na_number",
    "SBayes.Data.C39_loading_succeeds_iff",
    "SBayes.Data.C39_applicable_states_partial",
    "SBayes.Data.C39_applicable_states_false"
   ],
   "note": "Encoding, decoding and the count of missing values are proved for all tables; the flags of applicable states only for state tables without gaps (C39_applicable_states_false)."
  },
  {
   "property": "C40",
   "status": "proved",
   "theorems": [
    "SBayes.Data.C40_groups",
    "SBayes.Data.C40_partition",
    "SBayes.Data.C40_universal",
    "SBayes.Data.C40_loading_succeeds_iff"
   ],
   "note": ""
  },
  {
   "property": "C41",
   "status": "partial",
   "theorems": [
    "SBayes.Data.C41_entry",
    "SBayes.Data.C41_entries",
    "SBayes.Data.C41_symmetric_partial",
    "SBayes.Data.C41_order_irrelevant",
    "SBayes.Data.C41_loading_succeeds_iff",
    "SBayes.Data.C41_symmetric_false"
   ],
   "note": "Nearly symmetric cost files are not symmetrised (C41_symmetric_false); everything else is proved for all files."
  },
  {
   "property": "C42",
   "status": "proved",
   "theorems": [
    "SBayes.Data.C42_scale_counts"
   ],
   "note": ""
  },
  {
   "property": "C56",
   "status": "partial",
   "theorems": [
    "SBayes.Data.C56_clusters",
    "SBayes.Data.C56_groups_partial",
    "SBayes.Data.C56_groups_of_the_canvas",
    "SBayes.Data.C56_groups_missing_false"
   ],
   "note": "Sites without an entry form a group of their own (C56_groups_missing_false)."
  },
  {
   "property": "C57",
   "status": "proved",
   "theorems": [
    "SBayes.Data.C57_row_order_irrelevant",
    "SBayes.Data.C57_whitespace_irrelevant",
    "SBayes.Data.C57_row_alignment"
   ],
   "note": ""
  },
  {
   "property": "C58",
   "status": "partial",
   "theorems": [
    "SBayes.Data.C58_extracted_states_fit_partial",
    "SBayes.Data.C58_extracted_states_fit_false"
   ],
   "note": "False for cells of white space only (C58_extracted_states_fit_false); proved for all other files."
  },
  {
   "property": "C59",
   "status": "partial",
   "theorems": [
    "SBayes.Data.C59_empirical_prior_partial",
    "SBayes.Data.C59_empirical_prior_false",
    "SBayes.Data.C59_counts",
    "SBayes.Data.C59_limited_counts"
   ],
   "note": "The reader adds 1 to the c0 the tool has already added (C59_empirical_prior_false); the exact concentration is proved."
  },
  {
   "property": "C43",
   "status": "proved",
   "theorems": [
    "SBayes.Config.C43_paths",
    "SBayes.Config.C43_set_defaults",
    "SBayes.Config.C43_idempotent",
    "SBayes.Config.C43_update",
    "SBayes.Config.C43_iter_items"
   ],
   "note": ""
  },
  {
   "property": "C44",
   "status": "proved",
   "theorems": [
    "SBayes.Config.C44_each_pair_once",
    "SBayes.Config.C44_count",
    "SBayes.Config.C44_files_differ",
    "SBayes.Config.C44_no_shared_file",
    "SBayes.Config.C44_run_config",
    "SBayes.Config.C44_open_paths",
    "SBayes.Config.C44_repeated_false",
    "SBayes.Config.C44_custom_settings_lost"
   ],
   "note": "For lists of cluster numbers without repetition. Also shown: custom_settings given to main do not reach the runs."
  },
  {
   "property": "C46",
   "status": "proved",
   "theorems": [
    "SBayes.Util.C46_normalize",
    "SBayes.Util.C46_normalize_axis0",
    "SBayes.Util.C46_idempotent",
    "SBayes.Util.C46_mle",
    "SBayes.Util.C46_assign_na"
   ],
   "note": ""
  },
  {
   "property": "C47",
   "status": "partial",
   "theorems": [
    "SBayes.Util.C47_linear_rescale_partial",
    "SBayes.Util.C47_only_if_same_end",
    "SBayes.Util.C47_linear_rescale_false"
   ],
   "note": "False of the code: it maps the ends correctly exactly when the two ranges end at the same value (C47_only_if_same_end)."
  },
  {
   "property": "C48",
   "status": "partial",
   "theorems": [
    "SBayes.Util.C48_round_single_int",
    "SBayes.Util.C48_up_moves_multiples",
    "SBayes.Util.C48_round_multiple_ints",
    "SBayes.Util.C48_round_multiple_ints_false",
    "SBayes.Util.C48_round_int",
    "SBayes.Util.C48_round_int_close",
    "SBayes.Util.C48_digits",
    "SBayes.Util.C48_round_int_false"
   ],
   "note": "round_single_int for all numbers, round_multiple_ints for positive numbers (C48_round_multiple_ints_false); round_int raises when rounding up above the offset (C48_round_int_false), its exact domain is proved."
  },
  {
   "property": "C60",
   "status": "proved",
   "theorems": [
    "SBayes.Util.C60_max_size_list"
   ],
   "note": ""
  },
  {
   "property": "C61",
   "status": "proved",
   "theorems": [
    "SBayes.Util.C61_n_smallest_idx",
    "SBayes.Util.C61_ties_false",
    "SBayes.Util.C61_bounding_box"
   ],
   "note": ""
  },
  {
   "property": "C62",
   "status": "proved",
   "theorems": [
    "SBayes.Sim.C62_simulated_data_follow_likelihood",
    "SBayes.Sim.C62_likelihood_is_normalised"
   ],
   "note": ""
  },
  {
   "property": "C63",
   "status": "proved",
   "theorems": [
    "SBayes.Sim.C63_states_per_feature",
    "SBayes.Sim.C63_effect_row"
   ],
   "note": ""
  },
  {
   "property": "C64",
   "status": "proved",
   "theorems": [
    "SBayes.Sim.C64_written_files_load"
   ],
   "note": ""
  },
  {
   "property": "C65",
   "status": "proved",
   "theorems": [
    "SBayes.Posterior.C65_reference_model_agrees",
    "SBayes.Posterior.C65_values_differ"
   ],
   "note": "The constant is not 1 (C65_values_differ): the reference model counts Gamma(number of states) for each uniform confounding effect."
  },
  {
   "property": "C66",
   "status": "partial",
   "theorems": [
    "SBayes.Posterior.C66_uncached_posterior",
    "SBayes.Posterior.C66_cached_posterior_up_to_geo",
    "SBayes.Posterior.C66_cached_posterior_partial",
    "SBayes.Posterior.C66_model_call_is_a_history",
    "SBayes.Posterior.C66_source_must_match_configuration",
    "SBayes.Posterior.C66_cached_posterior_false"
   ],
   "note": "Without caching for every history; with caching the result is off by exactly (cached geo-prior - current geo-prior), which is 0 if the geo-prior is uniform; false otherwise (C66_cached_posterior_false), because the geo-prior node has no inputs (C07)."
  },
  {
   "property": "C67",
   "status": "partial",
   "theorems": [
    "SBayes.Clusters.C67_cluster_posterior_is_the_membership_posterior_partial",
    "SBayes.Clusters.C67_missing_features_false"
   ],
   "note": "Proved for objects without missing features; false otherwise (C67_missing_features_false): the cluster component has likelihood 0 instead of 1 for missing features. The proposal is still reversible (C20)."
  },
  {
   "property": "C68",
   "status": "partial",
   "theorems": [
    "SBayes.Sampler.C68_caches_are_unobservable_partial",
    "SBayes.Sampler.C68_self_checks_pass",
    "SBayes.Sampler.C68_self_check_of_the_prior",
    "SBayes.Sampler.C68_geo_prior_is_frozen_at_the_first_sample",
    "SBayes.Sampler.C68_geo_prior_has_no_influence",
    "SBayes.Sampler.C68_self_check_fails"
   ],
   "note": "Proved for geo-priors that do not depend on the clusters (type uniform). For the others the code falsifies it: without self-checks the geo-prior stays what it was at the first sample, after step 1000 it has no influence at all, and when sampling from the prior the self-check fails (C68_self_check_fails)."
  },
  {
   "property": "C69",
   "status": "partial",
   "theorems": [
    "SBayes.Sampler.C69_log_is_the_log_of_the_ideal_run_partial",
    "SBayes.Sampler.C69_logging_does_not_change_the_step",
    "SBayes.Sampler.C69_logged_prior_false"
   ],
   "note": "Proved for geo-priors that do not depend on the clusters; false of the code otherwise (C69_logged_prior_false), because of the stale geo-prior (C07)."
  },
  {
   "property": "C70",
   "status": "proved",
   "theorems": [
    "SBayes.Post.C70_rank",
    "SBayes.Post.C70_rank_exists",
    "SBayes.Post.C70_match_clusters_false"
   ],
   "note": "argsort is modelled by its contract (any sorting permutation). C70_match_clusters_false records a finding about the sibling function match_clusters: it raises on every input."
  },
  {
   "property": "C71",
   "status": "partial",
   "theorems": [
    "SBayes.Post.C71_dic_partial",
    "SBayes.Post.C71_dic_none",
    "SBayes.Post.C71_dic_order",
    "SBayes.Post.C71_dic_false"
   ],
   "note": "The code has the wrong sign in one term: the result is the criterion minus four times the best log-likelihood. Witness C71_dic_false: two runs that are put in the wrong order."
  },
  {
   "property": "C72",
   "status": "partial",
   "theorems": [
    "SBayes.Plot.C72_burn_in_partial",
    "SBayes.Plot.C72_burn_in_zero",
    "SBayes.Plot.C72_burn_in_false"
   ],
   "note": "No burn-in sample is ever used, but the code discards twice: once on loading (burn-in of the map) and again in every plot (C72_burn_in_false)."
  },
  {
   "property": "C73",
   "status": "proved",
   "theorems": [
    "SBayes.Plot.C73_consensus_map",
    "SBayes.Plot.C73_consensus_map_gabriel",
    "SBayes.Plot.C73_consensus_map_exists",
    "SBayes.Plot.C73_density_map",
    "SBayes.Plot.C73_weight_le",
    "SBayes.Plot.C73_gabriel",
    "SBayes.Plot.C73_gabriel_keeps"
   ],
   "note": "scipy's triangulation is an arbitrary symmetric loop-free graph with at least one edge. Gabriel edges with the code's tolerance of a thousandth of the radius."
  },
  {
   "property": "C74",
   "status": "partial",
   "theorems": [
    "SBayes.Plot.C74_cells",
    "SBayes.Plot.C74_slices_sum",
    "SBayes.Plot.C74_slices",
    "SBayes.Plot.C74_pies_partial",
    "SBayes.Plot.C74_label_partial",
    "SBayes.Plot.C74_single_row_false",
    "SBayes.Plot.C74_label_false"
   ],
   "note": "Proved for grids with at least two rows and columns and for names without both blank and dash; false of the code otherwise (witnesses)."
  },
  {
   "property": "C75",
   "status": "proved",
   "theorems": [
    "SBayes.Plot.C75_entries",
    "SBayes.Plot.C75_table"
   ],
   "note": "For a table with at least one entry and one column."
  },
  {
   "property": "C76",
   "status": "partial",
   "theorems": [
    "SBayes.Plot.C76_legend_partial",
    "SBayes.Plot.C76_legend_false"
   ],
   "note": "The code sorts the likelihoods but not the labels; right only if the clusters are already ranked."
  },
  {
   "property": "C77",
   "status": "proved",
   "theorems": [
    "SBayes.Sampler.C77_contributions_of_single_clusters",
    "SBayes.Sampler.C77_contributions_follow_the_matching"
   ],
   "note": "Model of the single-cluster sample built by the logger and its evaluation by the cached model."
  },
  {
   "property": "C78",
   "status": "partial",
   "theorems": [
    "SBayes.Log.C78_file_reads_back",
    "SBayes.Log.C78_file_determines_counts",
    "SBayes.Log.C78_totals_count_the_steps",
    "SBayes.Log.C78_names_distinct_iff",
    "SBayes.Log.C78_row_names_false"
   ],
   "note": "All but the names: rows carry the class name of the operator, so the operators of two or more confounders have equal names (C78_row_names_false; C78_names_distinct_iff says exactly when names are distinct)."
  },
  {
   "property": "C79",
   "status": "partial",
   "theorems": [
    "SBayes.Log.C79_interrupted_run",
    "SBayes.Log.C79_uninterrupted_run",
    "SBayes.Log.C79_loading_an_interrupted_run",
    "SBayes.Log.C79_incomplete_line_is_noticed",
    "SBayes.Log.C79_same_number_of_samples_false",
    "SBayes.Log.C79_operator_statistics_kept_false"
   ],
   "note": "Proved for the text files of statistics and clusters. Not true: equal numbers of samples (the last row can lack its clusters, unnoticed on loading), and keeping the operator statistics (the file is truncated before it is rewritten). The HDF5 file is not modelled."
  },
  {
   "property": "C80",
   "status": "proved",
   "theorems": [
    "SBayes.Kernel.C80_sampler_leaves_posterior_invariant",
    "SBayes.Kernel.C80_sampler_without_sources_leaves_posterior_invariant",
    "SBayes.Kernel.C80_density_with_sources",
    "SBayes.Kernel.C80_density_without_sources"
   ],
   "note": "Measure-theoretic: draws have their continuous laws (Dirichlet as normalised Gammas, Beta, uniform), the state is distributed over discrete and simplex-valued parameters. Requires a proper set-up (WellPosed: every observation applicable, every object in some group of some confounder, disjoint groups, positive concentrations, a well-defined geo-prior); without sources also two applicable states per feature. The posterior is evaluated without caches (C66, C68)."
  },
  {
   "property": "C81",
   "status": "proved",
   "theorems": [
    "SBayes.Kernel.C81_posterior_is_proper",
    "SBayes.Kernel.C81_normalized_posterior_is_invariant",
    "SBayes.Kernel.C81_normalized_posterior_is_invariant_without_sources"
   ],
   "note": "Same set-up as C80."
  },
  {
   "property": "C82",
   "status": "proved",
   "theorems": [
    "SBayes.Clusters.C82_alterCluster_reaches_every_configuration",
    "SBayes.Clusters.C82_gibbsish_reaches_every_configuration",
    "SBayes.Clusters.C82_gibbsish2_reaches_every_configuration",
    "SBayes.Clusters.C82_alterCluster_fixed_size_false",
    "SBayes.Clusters.C82_only_neighbours_false"
   ],
   "note": "The conditions are part of the statement; the two _false theorems show that they are needed."
  },
  {
   "property": "C83",
   "status": "proved",
   "theorems": [
    "SBayes.Kernel.C83_posterior_is_the_only_equilibrium"
   ],
   "note": "Same set-up as C80, with sources. Distributions with a density: those for which states of posterior zero have probability zero."
  },
  {
   "property": "C84",
   "status": "proved",
   "theorems": [
    "SBayes.Kernel.C84_sampling_never_fails"
   ],
   "note": "Same set-up as C80, with sources. An exception of a draw is modelled as missing probability mass. Floating-point rounding is not modelled."
  },
  {
   "property": "C85",
   "status": "proved",
   "theorems": [
    "SBayes.Kernel.C85_averages_converge",
    "SBayes.Kernel.C85_frequencies_converge"
   ],
   "note": "Same set-up as C83 (sources, all operators in use, K*min_size < number of objects). Convergence in probability; for all later times at once see C114; rates are not claimed. The loop of generate_samples is modelled with its log (Model/SampleLoop.lean)."
  },
  {
   "property": "C86",
   "status": "proved",
   "theorems": [
    "SBayes.Validate.C86_accepted_configurations_are_valid",
    "SBayes.Validate.C86_settings_are_those_of_the_file",
    "SBayes.Validate.C86_unknown_settings_are_rejected",
    "SBayes.Validate.C86_confounding_priors_are_those_of_the_file",
    "SBayes.Validate.C86_custom_settings_come_first",
    "SBayes.Validate.C86_without_custom_settings",
    "SBayes.Validate.C86_update_with_nothing",
    "SBayes.Validate.C86_required_despite_default",
    "SBayes.Validate.C86_documented_configurations_are_accepted",
    "SBayes.Validate.C86_no_in_quotes"
   ],
   "note": "pydantic's validators are modelled from their documentation (version 1); reading of YAML/JSON, the existence of files and the conversion between strings and numbers are parameters. A string such as sample_source: 'no' is truthy for validate_operators: the frequency of the source operator is then not set to 0 (without effect, get_operators ignores it)."
  },
  {
   "property": "C87",
   "status": "proved",
   "theorems": [
    "SBayes.Build.C87_run_is_what_the_inputs_say",
    "SBayes.Build.C87_runs_iff",
    "SBayes.Build.C87_run_is_well_posed",
    "SBayes.Build.C87_samples_approach_the_posterior",
    "SBayes.Build.C87_configured_runs_converge",
    "SBayes.Build.C87_accepted_configurations_may_not_run"
   ],
   "note": "The network of the objects (Delaunay triangulation, distances), scipy's spanning trees, pandas' conversions and the contents of files are parameters. What the run says about states assumes a state table without gaps (see C39). C87_accepted_configurations_may_not_run lists accepted configurations that fail for all data."
  },
  {
   "property": "C88",
   "status": "proved",
   "theorems": [
    "SBayes.Kernel.C88_runs_from_any_start",
    "SBayes.Kernel.C88_averages_converge_from_any_start",
    "SBayes.Kernel.C88_whole_run_converges",
    "SBayes.Kernel.C88_whole_run_frequencies",
    "SBayes.Kernel.C88_whole_run_succeeds",
    "SBayes.Kernel.C88_main_run_continues",
    "SBayes.Kernel.C88_warm_up_returns_the_best"
   ],
   "note": "Strengthens C85: no density with respect to the posterior is needed for the start. The draws for the initial clusters are an arbitrary stream (only required not to end in the ValueError of generate_initial_clusters); the theorems hold for each of them. Convergence in probability (for all later times at once see C114); rates are not claimed (the weight operator is an independence sampler with unbounded importance ratio)."
  },
  {
   "property": "C89",
   "status": "proved",
   "theorems": [
    "SBayes.Kernel.C89_posterior_is_the_only_equilibrium",
    "SBayes.Kernel.C89_sampling_never_fails",
    "SBayes.Kernel.C89_averages_converge",
    "SBayes.Kernel.C89_frequencies_converge",
    "SBayes.Kernel.C89_fixed_size_false"
   ],
   "note": "The counterpart of C83-C85 for sample_source: false. The conditions are those of CanMove (Spec/NoSource.lean); C89_fixed_size_false shows that the condition on sizes is needed. Starts must have a density with respect to the posterior."
  },
  {
   "property": "C90",
   "status": "proved",
   "theorems": [
    "SBayes.Kernel.C90_runs_from_any_start",
    "SBayes.Kernel.C90_averages_converge_from_any_start",
    "SBayes.Kernel.C90_whole_run_converges",
    "SBayes.Kernel.C90_whole_run_frequencies",
    "SBayes.Kernel.C90_whole_run_succeeds",
    "SBayes.Kernel.C90_main_run_continues"
   ],
   "note": "The counterpart of C88 for sample_source: false, under the conditions of CanMove (see C89) for convergence; only a feature and two applicable states per feature are needed not to fail. Convergence in probability; rates are not claimed."
  },
  {
   "property": "C91",
   "status": "proved",
   "theorems": [
    "SBayes.Kernel.C91_density_with_sources",
    "SBayes.Kernel.C91_density_without_sources",
    "SBayes.Kernel.C91_leaves_prior_invariant",
    "SBayes.Kernel.C91_prior_is_the_only_equilibrium",
    "SBayes.Kernel.C91_runs_from_any_start",
    "SBayes.Kernel.C91_whole_run_converges",
    "SBayes.Kernel.C91_whole_run_succeeds",
    "SBayes.Kernel.C91_runs_from_any_start_without_sources",
    "SBayes.Kernel.C91_whole_run_converges_without_sources",
    "SBayes.Kernel.C91_whole_run_succeeds_without_sources",
    "SBayes.Kernel.C91_clusters_are_independent_of_effects",
    "SBayes.Kernel.C91_cluster_frequencies",
    "SBayes.Kernel.C91_cluster_frequencies_without_sources",
    "SBayes.Kernel.C91_cluster_prior_is_a_distribution"
   ],
   "note": "Prior evaluated without caches; with the cached evaluation a cost-based geo-prior is stale in this mode (C07, C68). The initial effects are computed from the data in this mode too (they do not influence the limit). GibbsSampleWeights takes no flag, it only depends on the sources."
  },
  {
   "property": "C92",
   "status": "proved",
   "theorems": [
    "SBayes.Kernel.C92_same_posterior",
    "SBayes.Kernel.C92_same_answer"
   ],
   "note": "For the two modes of the same configuration (withSampling); convergence under the conditions of C88 and C90."
  },
  {
   "property": "C93",
   "status": "proved",
   "theorems": [
    "SBayes.Kernel.C93_loaded_fractions_converge",
    "SBayes.Kernel.C93_loaded_weights_converge",
    "SBayes.Kernel.C93_loaded_confounding_converges",
    "SBayes.Kernel.C93_loaded_cluster_effects_converge",
    "SBayes.Kernel.C93_loaded_cluster_effects_converge_no_source",
    "SBayes.Kernel.C93_loaded_fractions_converge_no_source",
    "SBayes.Kernel.C93_loaded_weights_converge_no_source",
    "SBayes.Kernel.C93_loaded_confounding_converges_no_source"
   ],
   "note": "Combines C88/C90 with C55. Names must satisfy GoodNames and PlainText (C38 shows why). The columns of cluster effects are relabelled sample by sample, so that one column does not estimate a fixed parameter; the theorem is about the effect of the cluster a given object is in. The likelihoods in the snapshots are arbitrary here (they are those of C69)."
  },
  {
   "property": "C94",
   "status": "proved",
   "theorems": [
    "SBayes.Par.C94_each_run_as_if_alone",
    "SBayes.Par.C94_other_files_untouched",
    "SBayes.Par.C94_configuration_copied",
    "SBayes.Par.C94_parallel_equals_sequential",
    "SBayes.Par.C94_runs_end",
    "SBayes.Par.C94_log",
    "SBayes.Par.C94_text_files",
    "SBayes.Par.C94_complete_results",
    "SBayes.Par.C94_default_name",
    "SBayes.Par.C94_same_name_iff_same_minute",
    "SBayes.Par.C94_same_minute_keeps_results_false"
   ],
   "note": "Processes are trees of reads and file operations; schedules are arbitrary lists of process numbers. Hypotheses: no number of clusters is repeated (C44_repeated_false shows why), configuration and data are not in the results directory, the configuration file is not called experiment.log. A message of the log is one operation. The last theorem is a finding: the default name has a resolution of a minute and an existing directory is reused without a warning, so the first of two experiments of one minute is overwritten."
  },
  {
   "property": "C95",
   "status": "partial",
   "theorems": [
    "SBayes.Gen.C95_runs_of_one_process_are_independent",
    "SBayes.Gen.C95_runs_of_spawned_processes_are_independent",
    "SBayes.Gen.C95_runs_of_one_forked_process_are_independent",
    "SBayes.Gen.C95_forked_processes_draw_the_same_numbers",
    "SBayes.Gen.C95_forked_runs_have_the_same_first_operator",
    "SBayes.Gen.C95_runs_of_forked_processes_are_independent_false"
   ],
   "note": "Runs are well-founded trees of draws from two generators with independent numbers of an arbitrary law on a countable set. Full claim false for pools started with fork (finding: cli.main does not seed numpy in the processes of the pool): the last theorem. The semantics of fork and spawn with respect to the generators of numpy and `random` is part of the trusted base. Which process executes which runs does not depend on the numbers."
  },
  {
   "property": "C96",
   "status": "partial",
   "theorems": [
    "SBayes.Simplex.C96_corners_after_other_plots",
    "SBayes.Simplex.C96_similar_to_a_new_plot",
    "SBayes.Simplex.C96_same_call_same_figure_false",
    "SBayes.Simplex.C96_samples_in_the_polygon",
    "SBayes.Simplex.C96_nothing_is_cut_off",
    "SBayes.Simplex.C96_corner_is_certainty",
    "SBayes.Simplex.C96_labels",
    "SBayes.Simplex.C96_mean",
    "SBayes.Simplex.C96_position_determines_three_weights",
    "SBayes.Simplex.C96_position_determines_weights_false",
    "SBayes.Simplex.C96_weights_of_two_components_false",
    "SBayes.Simplex.C96_outside_is_hidden"
   ],
   "note": "Real arithmetic; the estimation of the density and the drawing itself are not modelled. Findings: `plot_preference` changes the cached array of `get_corner_points` (xy *= 1.2), so that a repeated plot is larger; `plot_weight` raises with one confounder; four or more components are not determined by the position."
  },
  {
   "property": "C97",
   "status": "partial",
   "theorems": [
    "SBayes.PlotMain.C97_plots_made",
    "SBayes.PlotMain.C97_settings",
    "SBayes.PlotMain.C97_map_for_a_threshold",
    "SBayes.PlotMain.C97_weight_settings_used_false",
    "SBayes.PlotMain.C97_only_if_in_the_file_false",
    "SBayes.PlotMain.C97_types_as_texts_false",
    "SBayes.PlotMain.C97_without_arguments_false",
    "SBayes.PlotMain.C97_map_for_each_threshold_false"
   ],
   "note": "The plot functions themselves are assumed to end without an exception. Full claim false: weights (key `weights_plot` asked for, `weight_plot` used and in the defaults) and several thresholds (findings)."
  },
  {
   "property": "C98",
   "status": "partial",
   "theorems": [
    "SBayes.PlotMain.C98_files_of_the_same_run",
    "SBayes.PlotMain.C98_model_name",
    "SBayes.PlotMain.C98_models",
    "SBayes.PlotMain.C98_dic_plot",
    "SBayes.PlotMain.C98_missing_file_noticed_false",
    "SBayes.PlotMain.C98_different_depths_false",
    "SBayes.PlotMain.C98_same_names_false",
    "SBayes.PlotMain.C98_number_zero_false"
   ],
   "note": "Full claim false without the hypotheses on the files (findings: files are paired by position after sorting). Reading of the files: C37, C55; the value of the DIC: C71."
  },
  {
   "property": "C99",
   "status": "partial",
   "theorems": [
    "SBayes.WholeMap.C99_map_is_made",
    "SBayes.WholeMap.C99_extent",
    "SBayes.WholeMap.C99_all_objects_are_shown",
    "SBayes.WholeMap.C99_colors",
    "SBayes.WholeMap.C99_marked",
    "SBayes.WholeMap.C99_marked_once",
    "SBayes.WholeMap.C99_lines",
    "SBayes.WholeMap.C99_labels",
    "SBayes.WholeMap.C99_legend",
    "SBayes.WholeMap.C99_table",
    "SBayes.WholeMap.C99_numbers_on_the_map_are_in_the_table",
    "SBayes.WholeMap.C99_marked_once_default_false",
    "SBayes.WholeMap.C99_more_than_256_clusters_false",
    "SBayes.WholeMap.C99_in_cluster_labels_false",
    "SBayes.WholeMap.C99_density_table_false"
   ],
   "note": "Base map, overview map, projection, line widths and styles are not modelled; which lines are drawn is C73, the layout of the table C75. Findings: with the default threshold 0.5 (and >=) an object can be marked for two clusters; the colour map has 256 entries; the table of a density map is in the colour of cluster 1; no labels with `in_cluster` if languages are not labelled."
  },
  {
   "property": "C100",
   "status": "proved",
   "theorems": [
    "SBayes.Reorder.C100_posterior_does_not_depend_on_the_order",
    "SBayes.Reorder.C100_posterior_distribution",
    "SBayes.Reorder.C100_posterior_distribution_no_source",
    "SBayes.Reorder.C100_whole_run_converges",
    "SBayes.Reorder.C100_whole_run_converges_no_source"
   ],
   "note": "Exact arithmetic: sums of floating point numbers in another order differ by rounding."
  },
  {
   "property": "C101",
   "status": "proved",
   "theorems": [
    "SBayes.SimRun.C101_joint_law",
    "SBayes.SimRun.C101_is_probability",
    "SBayes.SimRun.C101_simulation_is_the_model",
    "SBayes.SimRun.C101_credible_sets_are_calibrated",
    "SBayes.SimRun.C101_calibrated_with_sources",
    "SBayes.SimRun.C101_every_canvas_works"
   ],
   "note": "Draws of numpy's generators are assumed independent with the laws they document. The analysis is told all states of a feature that the simulation can produce (the written states file lists only those that occur, C64), and its priors match: the model knows only uniform priors for weights and cluster effects, so only intensity 1 and concentration 1 match there."
  },
  {
   "property": "C102",
   "status": "partial",
   "theorems": [
    "SBayes.SimConfig.C102_required_fields",
    "SBayes.SimConfig.C102_values_kept",
    "SBayes.SimConfig.C102_loads",
    "SBayes.SimConfig.C102_own_states_partial",
    "SBayes.SimConfig.C102_own_shares",
    "SBayes.SimConfig.C102_default_shares_stay",
    "SBayes.SimConfig.C102_own_states_false",
    "SBayes.SimConfig.C102_files_partial",
    "SBayes.SimConfig.C102_default_path_false"
   ],
   "note": "The numbers of states are the user's only if the user names all of 2, 3 and 4 states; for the others the default shares stay in force (C102_default_shares_stay, C102_own_states_false). The data are written to the results directory only if a path is given (C102_default_path_false)."
  },
  {
   "property": "C103",
   "status": "proved",
   "theorems": [
    "SBayes.Rounding.C103_component_likelihoods_are_exact",
    "SBayes.Rounding.C103_log_likelihood_without_sources",
    "SBayes.Rounding.C103_log_likelihood_with_sources",
    "SBayes.Rounding.C103_log_source_prior",
    "SBayes.Rounding.C103_error_bound_for_doubles",
    "SBayes.Rounding.C103_mh_ratio_error",
    "SBayes.Rounding.C103_decision_changes_rarely"
   ],
   "note": "Standard model of floating point arithmetic: every operation has relative error at most u, the logarithm at most v; adding 0 and multiplying by 1 is exact; no overflow or underflow."
  },
  {
   "property": "C104",
   "status": "partial",
   "theorems": [
    "SBayes.Rounding.C104_excluded_component_is_never_drawn",
    "SBayes.Rounding.C104_first_component_needs_total_below_one",
    "SBayes.Rounding.C104_rounded_draw_rarely_differs",
    "SBayes.Rounding.C104_gibbs_source_draw",
    "SBayes.Rounding.C104_bound_for_doubles",
    "SBayes.Rounding.C104_outsider_gets_cluster_source_false"
   ],
   "note": "The full claim is false: for an object outside of all clusters with three confounders of weights 4, 1, 1 the double precision probabilities add up to 1 - 2^-53, and the draw 1 - 2^-53 selects the cluster effect (C104_outsider_gets_cluster_source_false, for IEEE doubles rounded to nearest). Such a sample has likelihood 0, and the Gibbs step accepts it."
  },
  {
   "property": "C105",
   "status": "partial",
   "theorems": [
    "SBayes.Double.C105_certain_member_has_probability_one",
    "SBayes.Double.C105_shrinking_a_certain_cluster_raises",
    "SBayes.Double.C105_underflow_raises",
    "SBayes.Double.C105_doubtful_member_has_probability_below_one",
    "SBayes.Double.C105_shrink_draws_partial",
    "SBayes.Double.C105_grow_draws_partial",
    "SBayes.Double.C105_shrinking_raises_false",
    "SBayes.Double.C105_many_features_raise_false"
   ],
   "note": "The full claim is true in exact arithmetic (C20) and false in IEEE doubles: with 56 to 500 features of probability 3/4 inside and 1/4 outside of the cluster, shrinking a cluster of any number of such objects raises a ValueError; with 1075 or more features the likelihood of an object underflows. C105_shrink_draws_partial, C105_grow_draws_partial: sufficient conditions under which an object is drawn."
  },
  {
   "property": "C106",
   "status": "partial",
   "theorems": [
    "SBayes.Double.C106_certain_object_is_never_added",
    "SBayes.Double.C106_certain_object_blocks_the_cluster",
    "SBayes.Double.C106_doubtful_object_can_be_added_partial",
    "SBayes.Double.C106_doubtful_objects_can_be_redrawn_partial",
    "SBayes.Double.C106_last_object_is_never_added_false"
   ],
   "note": "False in IEEE doubles (C106_last_object_is_never_added_false: 56 to 500 features of probability 3/4 inside, 1/4 outside of the cluster, any number of objects). C106_doubtful_object_can_be_added_partial: for objects at most 2^50 times as likely inside, the growing step is decided by the usual Metropolis-Hastings comparison with positive probabilities; C106_doubtful_objects_can_be_redrawn_partial: under the same bounds for all available objects every admissible cluster is proposed by the redrawing operator for a box of random numbers with interior, and decided by the same comparison."
  },
  {
   "property": "C107",
   "status": "partial",
   "theorems": [
    "SBayes.Settings.C107_skeleton_is_ignored",
    "SBayes.Settings.C107_skeleton_false",
    "SBayes.Settings.C107_grow_to_adjacent_is_ignored",
    "SBayes.Settings.C107_grow_to_adjacent_is_passed_on",
    "SBayes.Settings.C107_grow_to_adjacent_favours_neighbours",
    "SBayes.Settings.C107_warmup_settings_are_ignored",
    "SBayes.Settings.C107_warmup_limits_false"
   ],
   "note": "False for skeleton (C107_skeleton_false: complete graph -N(N-1)/2, evaluated -(N-1)), for grow_to_adjacent with source sampling and for the warm-up limits (C107_warmup_limits_false). Proved: the value of grow_to_adjacent reaches the setup (C107_grow_to_adjacent_is_passed_on) and without source sampling it strictly favours neighbours."
  },
  {
   "property": "C108",
   "status": "partial",
   "theorems": [
    "SBayes.Missing.C108_given_costs_partial",
    "SBayes.Missing.geoPrior_fin",
    "SBayes.Missing.C108_given_costs_are_read",
    "SBayes.Missing.C108_missing_cells_are_accepted",
    "SBayes.Missing.C108_missing_pairs_contribute_nothing",
    "SBayes.Missing.C108_unreachable_objects_are_free",
    "SBayes.Missing.C108_unreachable_object_is_free",
    "SBayes.Missing.C108_infinite_cost_is_preferred_false",
    "SBayes.Missing.exists_minForest",
    "SBayes.Missing.C108_three_objects"
   ],
   "note": "False for missing and infinite costs (C108_infinite_cost_is_preferred_false: 1000 gives -1000, inf gives 0). Proved for finite costs in all cells: same file reader and same prior as in C41 and C15; and exactly what missing costs do: accepted iff the names fit, pairs without a cost contribute nothing, an unreachable object does not change what is aggregated. -inf is not modelled."
  },
  {
   "property": "C109",
   "status": "proved",
   "theorems": [
    "SBayes.Data.C109_concentrations",
    "SBayes.Data.C109_usable_iff_complete",
    "SBayes.Data.C109_fails_iff_text",
    "SBayes.Data.C109_gives_unique",
    "SBayes.Data.C109_repeated_features_are_reported_false"
   ],
   "note": "For tables with pairwise different column names (pandas renames repeated ones) and names that pandas does not take for numbers. C109_repeated_features_are_reported_false is a finding, not part of the claim."
  },
  {
   "property": "C110",
   "status": "partial",
   "theorems": [
    "SBayes.SetupLog.C110_log_determines_setup_partial",
    "SBayes.SetupLog.C110_log_shows_settings",
    "SBayes.SetupLog.C110_log_determines_priors_false"
   ],
   "note": "Missing: parameters and files of Dirichlet priors and the switch sample_from_prior are not in the log (C110_log_determines_priors_false, for configurations that are accepted)."
  },
  {
   "property": "C111",
   "status": "proved",
   "theorems": [
    "SBayes.Sampler.C111_likelihood_file",
    "SBayes.Sampler.C111_no_file_when_sampling_from_the_prior",
    "SBayes.Sampler.C111_missing_observations",
    "SBayes.Sampler.C111_assumption_is_needed"
   ],
   "note": "The run is an inductive relation over the modelled start, step and screen output, with any geo-prior (no constancy assumption, unlike C69). The single-precision conversion of the file is an arbitrary function in the model; the sum of logarithms is stated for the unrounded likelihoods."
  },
  {
   "property": "C112",
   "status": "proved",
   "theorems": [
    "SBayes.Validate.C112_completed_template",
    "SBayes.Validate.C112_placeholders_are_rejected",
    "SBayes.Validate.C112_placeholders_of_the_template",
    "SBayes.Validate.C112_optional_lines_must_be_edited"
   ],
   "note": "The path of the results is `results` in the template and `./results` by default: the same directory; the model does not normalise paths. generate_template, which produced the file, is not modelled."
  },
  {
   "property": "C113",
   "status": "partial",
   "theorems": [
    "SBayes.PlotConfig.C113_values_kept",
    "SBayes.PlotConfig.C113_projection_partial",
    "SBayes.PlotConfig.C113_projection_unset",
    "SBayes.PlotConfig.C113_projection_false",
    "SBayes.PlotConfig.C113_labels",
    "SBayes.PlotConfig.C113_paths",
    "SBayes.PlotConfig.C113_loads",
    "SBayes.PlotConfig.C113_required_false",
    "SBayes.PlotConfig.C113_single_path",
    "SBayes.PlotConfig.C113_single_path_false"
   ],
   "note": "The projection of the data is used for the map only if the user sets an empty projection for the map (C113_projection_unset, C113_projection_false). Missing files are not noticed (C113_required_false), and a single path is read as one file per character (C113_single_path, C113_single_path_false)."
  },
  {
   "property": "C114",
   "status": "proved",
   "theorems": [
    "SBayes.Kernel.C114_averages_settle",
    "SBayes.Kernel.C114_whole_run_settles",
    "SBayes.Kernel.C114_whole_run_frequencies_settle",
    "SBayes.Kernel.C114_averages_settle_without_sources",
    "SBayes.Kernel.C114_whole_run_settles_without_sources",
    "SBayes.Kernel.C114_whole_run_frequencies_settle_without_sources"
   ],
   "note": "The strong law of large numbers in its finite form (a bound, uniform in the length of the run, on the probability that some later average is off). Same set-up as C88 and C90. No rate is claimed: n0 depends on the data, the function, the start, the tolerance and the probability."
  },
  {
   "property": "C115",
   "status": "proved",
   "theorems": [
    "SBayes.Kernel.C115_posterior_is_symmetric",
    "SBayes.Kernel.C115_posterior_is_symmetric_without_sources",
    "SBayes.Kernel.C115_unmatched_frequencies_agree",
    "SBayes.Kernel.C115_unmatched_frequencies_agree_without_sources"
   ],
   "note": "About the samples before the loggers match the clusters; what the loggers write is C36, C55 and C93."
  },
  {
   "property": "C116",
   "status": "proved",
   "theorems": [
    "SBayes.Kernel.C116_sizes_are_uniform",
    "SBayes.Kernel.C116_sizes_are_uniform_without_sources"
   ],
   "note": "Ties C13, C14 and C91 together. The vector of sizes is that of the numbered clusters."
  },
  {
   "property": "C117",
   "status": "proved",
   "theorems": [
    "SBayes.Kernel.C117_assignments_are_uniform",
    "SBayes.Kernel.C117_assignments_are_uniform_without_sources"
   ],
   "note": "The counterpart of C116 for uniform_area."
  },
  {
   "property": "C118",
   "status": "proved",
   "theorems": [
    "SBayes.Kernel.C118_quadratic_frequencies",
    "SBayes.Kernel.C118_quadratic_frequencies_without_sources"
   ],
   "note": "For min size at least 1: the logarithm of an empty cluster's squared size is minus infinity (WellPosed.nonempty)."
  },
  {
   "property": "C119",
   "status": "proved",
   "theorems": [
    "SBayes.Kernel.C119_weights_and_effects_are_uniform",
    "SBayes.Kernel.C119_weights_and_effects_are_uniform_without_sources"
   ],
   "note": "The shares of the areal effect are uniform before any data are seen, also when sources are sampled."
  },
  {
   "property": "C120",
   "status": "proved",
   "theorems": [
    "SBayes.Kernel.C120_all_parameters_follow_the_prior",
    "SBayes.Kernel.C120_all_parameters_follow_the_prior_without_sources"
   ],
   "note": "Joint version of C91, C117 and C119, with the Dirichlet laws of the confounding effects made explicit."
  }
 ]
}