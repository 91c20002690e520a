SBayes.Heap.C01_copies_are_independent_values: [propext, Classical.choice, Quot.sound]
SBayes.Heap.C01_no_interference: [propext, Classical.choice, Quot.sound]
SBayes.Heap.C02_group_counters_independent_partial: [propext, Classical.choice, Quot.sound]
SBayes.Heap.C02_false: [propext]
SBayes.Heap.C03_version_counts_completed_mutations: [propext, Classical.choice, Quot.sound]
SBayes.Heap.C03_equal_version_equal_value: [propext, Classical.choice, Quot.sound]
SBayes.Heap.C03_aborted_edit_changes_value_silently: [propext]
SBayes.Heap.C49_values_are_write_protected: [propext, Classical.choice, Quot.sound]
SBayes.Cache.C04_cached_likelihood_equals_recomputed: [propext, Classical.choice, Quot.sound]
SBayes.Cache.C04_cached_likelihood_is_the_specified_one: [propext, Classical.choice, Quot.sound]
SBayes.Cache.C05_false: [propext, Classical.choice, Quot.sound]
SBayes.Cache.C05_uncached_likelihood_always_right_partial: [propext, Classical.choice, Quot.sound]
SBayes.Cache.C06_size_prior_cache_is_sound: [propext, Classical.choice, Quot.sound]
SBayes.Cache.C06_source_prior_cache_is_sound: [propext, Classical.choice, Quot.sound]
SBayes.Cache.C06_confounding_effect_prior_cache_is_sound: [propext, Classical.choice, Quot.sound]
SBayes.Cache.C07_false: [propext, Classical.choice, Quot.sound]
SBayes.Cache.C07_geo_prior_is_frozen: [propext, Classical.choice, Quot.sound]
SBayes.Cache.C07_geo_prior_partial: [propext, Classical.choice, Quot.sound]
SBayes.Lik.C08_normalized_weights_are_distribution: [propext, Classical.choice, Quot.sound]
SBayes.Lik.C09_component_likelihood_is_specified: [propext, Classical.choice, Quot.sound]
SBayes.Lik.C09_incremental_update_is_specified: [propext, Classical.choice, Quot.sound]
SBayes.Lik.C10_sources_marginalise_to_mixture: [propext, Classical.choice, Quot.sound]
SBayes.Lik.C10_assignments_are_the_onehot_sources: [propext, Classical.choice, Quot.sound]
SBayes.Lik.C11_missing_observations_are_neutral: [propext, Classical.choice, Quot.sound]
SBayes.Lik.C11_missing_observations_are_neutral_source: [propext, Classical.choice, Quot.sound]
SBayes.Lik.C11_unobserved_effects_are_irrelevant: [propext, Classical.choice, Quot.sound]
SBayes.Lik.C12_cluster_labels_are_exchangeable: [propext, Classical.choice, Quot.sound]
SBayes.Prior.C12_size_prior_is_exchangeable: [propext, Classical.choice, Quot.sound]
SBayes.Prior.C12_geo_prior_is_exchangeable: [propext, Classical.choice, Quot.sound]
SBayes.Prior.C13_multinom_counts_placements: [propext, Classical.choice, Quot.sound]
SBayes.Prior.C13_multinom_factorials: [propext, Classical.choice, Quot.sound]
SBayes.Prior.C13_multinom_symmetric: [propext, Classical.choice, Quot.sound]
SBayes.Prior.C13_binom: [propext, Classical.choice, Quot.sound]
SBayes.Prior.C14_uniform_size_prior: [propext, Classical.choice, Quot.sound]
SBayes.Prior.C14_total_mass: [propext, Classical.choice, Quot.sound]
SBayes.Prior.C15_probability_functions: [propext, Classical.choice, Quot.sound]
SBayes.Prior.C15_geo_prior_decreases_with_cost: [propext, Classical.choice, Quot.sound]
SBayes.Prior.C15_geo_prior_mean_decreases_with_cost_partial: [propext, Classical.choice, Quot.sound]
SBayes.Prior.C15_geo_prior_sign: [propext, Classical.choice, Quot.sound]
SBayes.Prior.C15_any_minimum_spanning_tree: [propext, Classical.choice, Quot.sound]
SBayes.Prior.C15_mean_false: [propext, Classical.choice, Quot.sound]
SBayes.Clusters.C16_alterCluster_keeps_constraints: [propext, Classical.choice, Quot.sound]
SBayes.Clusters.C16_gibbsish_keeps_constraints: [propext, Classical.choice, Quot.sound]
SBayes.Clusters.C16_gibbsish2_keeps_constraints: [propext, Classical.choice, Quot.sound]
SBayes.Clusters.C17_alterCluster_reports_real_masses: [propext, Classical.choice, Quot.sound]
SBayes.Clusters.C18_alterCluster_detailed_balance: [propext, Classical.choice, Quot.sound]
SBayes.Clusters.C18_alterCluster_stationary: [propext, Classical.choice, Quot.sound]
SBayes.MH.C19_tempered_accept_event: [propext, Classical.choice, Quot.sound]
SBayes.MH.C19_accept_event: [propext, Classical.choice, Quot.sound]
SBayes.MH.C19_real_masses_give_detailed_balance: [propext, Classical.choice, Quot.sound]
SBayes.MH.C19_posterior_is_stationary: [propext, Classical.choice, Quot.sound]
SBayes.Clusters.C20_gibbsish_reports_real_masses: [propext, Classical.choice, Quot.sound]
SBayes.Clusters.C20_gibbsish2_reports_real_masses: [propext, Classical.choice, Quot.sound]
SBayes.Clusters.C20_gibbsish_reports_real_masses_from_prior: [propext, Classical.choice, Quot.sound]
SBayes.Clusters.C20_gibbsish_detailed_balance: [propext, Classical.choice, Quot.sound]
SBayes.Clusters.C20_cluster_posterior_is_the_same_both_ways: [propext, Classical.choice, Quot.sound]
SBayes.Clusters.C45_get_neighbours: [propext, Quot.sound]
SBayes.Clusters.C45_neighbours_are_free: [propext, Quot.sound]
SBayes.Clusters.C50_resampling_sources_keeps_masses_real: [propext, Classical.choice, Quot.sound]
SBayes.Clusters.C50_source_posterior_is_a_local_law: [propext, Classical.choice, Quot.sound]
SBayes.Clusters.C50_cluster_operators_with_sources_detailed_balance: [propext, Classical.choice, Quot.sound]
SBayes.Clusters.C50_every_clustering_has_possible_sources: [propext, Classical.choice, Quot.sound]
SBayes.Source.C21_sources_always_applicable: [propext, Classical.choice, Quot.sound]
SBayes.Source.C22_inverse_cdf: [propext, Classical.choice, Quot.sound]
SBayes.Source.C22_probability: [propext, Classical.choice, Quot.sound]
SBayes.Source.C22_never_impossible: [propext, Classical.choice, Quot.sound]
SBayes.Source.C22_binary_encoding: [propext, Classical.choice, Quot.sound]
SBayes.Source.C22_short_cdf_falls_back_to_zero: [propext, Classical.choice, Quot.sound]
SBayes.Source.C23_full_conditional: [propext, Classical.choice, Quot.sound]
SBayes.Source.C23_source_posterior_is_invariant: [propext, Classical.choice, Quot.sound]
SBayes.Source.C23_operator_uses_full_conditional: [propext, Classical.choice, Quot.sound]
SBayes.Effects.C24_weights_stay_on_the_simplex: [propext, Classical.choice, Quot.sound]
SBayes.Effects.C24_weights_stay_positive: [propext, Classical.choice, Quot.sound]
SBayes.Effects.C24_features_accept_independently: [propext, Classical.choice, Quot.sound]
SBayes.Effects.C25_two_states_change: [propext, Classical.choice, Quot.sound]
SBayes.Effects.C25_effects_stay_distributions: [propext, Classical.choice, Quot.sound]
SBayes.Effects.C26_cluster_effect_full_conditional: [propext, Classical.choice, Quot.sound]
SBayes.Effects.C26_confounding_effect_full_conditional: [propext, Classical.choice, Quot.sound]
SBayes.Effects.C26_counts: [propext, Classical.choice, Quot.sound]
SBayes.Effects.C51_alter_weights_stationary: [propext, Classical.choice, Quot.sound]
SBayes.Effects.C51_alter_effect_stationary: [propext, Classical.choice, Quot.sound]
SBayes.Effects.C52_gibbs_weights_stationary: [propext, Classical.choice, Quot.sound]
SBayes.Effects.C52_accept_event: [propext, Classical.choice, Quot.sound]
SBayes.MCMC.C27_accept_or_keep: [propext, Classical.choice, Quot.sound]
SBayes.MCMC.C27_books: [propext, Classical.choice, Quot.sound]
SBayes.MCMC.C27_contract_needed: [propext, Classical.choice, Quot.sound]
SBayes.MCMC.C27_accept_probability: [propext, Classical.choice, Quot.sound]
SBayes.MCMC.C28_rows: [propext, Classical.choice, Quot.sound]
SBayes.MCMC.C28_at_most_the_requested_rows: [propext, Classical.choice, Quot.sound]
SBayes.MCMC.C28_single_step_crashes: [propext, Classical.choice, Quot.sound]
SBayes.MCMC.C29_operator_rate: [propext, Classical.choice, Quot.sound]
SBayes.MCMC.C29_rate_false: [propext, Classical.choice, Quot.sound]
SBayes.MCMC.C29_rate_partial: [propext, Classical.choice, Quot.sound]
SBayes.MCMC.C32_normalized_weights: [propext, Classical.choice, Quot.sound]
SBayes.MCMC.C32_family_frequencies: [propext, Classical.choice, Quot.sound]
SBayes.MCMC.C32_needs_a_confounder: [propext, Classical.choice, Quot.sound]
SBayes.MCMC.C33_best_chain: [propext, Classical.choice, Quot.sound]
SBayes.MCMC.C53_real_masses_give_invariance: [propext, Classical.choice, Quot.sound]
SBayes.MCMC.C53_run_leaves_posterior_invariant: [propext, Classical.choice, Quot.sound]
SBayes.Init.C30_initial_clusters: [propext, Classical.choice, Quot.sound]
SBayes.Init.C30_initial_clusters_valid: [propext, Classical.choice, Quot.sound]
SBayes.Init.C30_may_give_up: [propext, Classical.choice, Quot.sound]
SBayes.Init.C30_one_cluster_is_always_found: [propext, Classical.choice, Quot.sound]
SBayes.Init.C30_succeeds_among_neighbours: [propext, Classical.choice, Quot.sound]
SBayes.Init.C31_initial_weights: [propext, Classical.choice, Quot.sound]
SBayes.Init.C31_group_effect: [propext, Classical.choice, Quot.sound]
SBayes.Init.C31_initial_effects: [propext, Classical.choice, Quot.sound]
SBayes.Run.C54_states_of_a_run_are_well_formed: [propext, Classical.choice, Quot.sound]
SBayes.Run.C54_likelihood_is_positive: [propext, Classical.choice, Quot.sound]
SBayes.Log.C34_statistics_file: [propext, Classical.choice, Quot.sound]
SBayes.Log.C34_columns_have_distinct_names: [propext, Classical.choice, Quot.sound]
SBayes.Log.C34_writing_never_raises: [propext, Classical.choice, Quot.sound]
SBayes.Log.C34_closing_without_samples_raises: [propext, Classical.choice, Quot.sound]
SBayes.Log.C34_shared_name_false: [propext, Classical.choice, Quot.sound]
SBayes.Log.C34_old_files_stay_until_the_first_sample: [propext, Classical.choice, Quot.sound]
SBayes.Log.C35_cluster_round_trip: [propext, Quot.sound]
SBayes.Log.C35_line_round_trip: [propext, Quot.sound]
SBayes.Log.C35_file_round_trip: [propext, Classical.choice, Quot.sound]
SBayes.Log.C35_no_clusters_false: [propext]
SBayes.Log.C36_best_permutation: [propext, Classical.choice, Quot.sound]
SBayes.Log.C36_same_best_relabelling_in_both_files: [propext, Classical.choice, Quot.sound]
SBayes.Log.C37_burn_in: [propext, Classical.choice, Quot.sound]
SBayes.Log.C38_names_recovered_partial: [propext, Classical.choice, Quot.sound]
SBayes.Log.C38_underscore_in_feature_false: [propext, Classical.choice, Quot.sound]
SBayes.Log.C38_underscore_in_group_false: [propext, Classical.choice, Quot.sound]
SBayes.Log.C38_reserved_confounder_false: [propext, Classical.choice, Quot.sound]
SBayes.Log.C38_confounder_areal_false: [propext, Classical.choice, Quot.sound]
SBayes.Log.C38_no_clusters: [propext, Classical.choice, Quot.sound]
SBayes.Log.C55_results_are_the_logged_samples: [propext, Classical.choice, Quot.sound]
SBayes.Data.C39_encoded_value: [propext, Classical.choice, Quot.sound]
SBayes.Data.C39_encoded_missing: [propext, Classical.choice, Quot.sound]
SBayes.Data.C39_encoding_injective: [propext, Classical.choice, Quot.sound]
SBayes.Data.C39_na_number: [propext, Classical.choice, Quot.sound]
SBayes.Data.C39_loading_succeeds_iff: [propext, Classical.choice, Quot.sound]
SBayes.Data.C39_applicable_states_partial: [propext, Classical.choice, Quot.sound]
SBayes.Data.C39_applicable_states_false: [propext]
SBayes.Data.C40_groups: [propext, Classical.choice, Quot.sound]
SBayes.Data.C40_partition: [propext, Classical.choice, Quot.sound]
SBayes.Data.C40_universal: [propext, Classical.choice, Quot.sound]
SBayes.Data.C40_loading_succeeds_iff: [propext, Classical.choice, Quot.sound]
SBayes.Data.C41_entry: [propext, Classical.choice, Quot.sound]
SBayes.Data.C41_entries: [propext, Classical.choice, Quot.sound]
SBayes.Data.C41_symmetric_partial: [propext, Classical.choice, Quot.sound]
SBayes.Data.C41_order_irrelevant: [propext, Classical.choice, Quot.sound]
SBayes.Data.C41_loading_succeeds_iff: [propext, Classical.choice, Quot.sound]
SBayes.Data.C41_symmetric_false: [propext, Classical.choice, Quot.sound]
SBayes.Data.C42_scale_counts: [propext, Classical.choice, Quot.sound]
SBayes.Data.C56_clusters: [propext, Classical.choice, Quot.sound]
SBayes.Data.C56_groups_partial: [propext, Classical.choice, Quot.sound]
SBayes.Data.C56_groups_of_the_canvas: [propext, Classical.choice, Quot.sound]
SBayes.Data.C56_groups_missing_false: [propext, Classical.choice, Quot.sound]
SBayes.Data.C57_row_order_irrelevant: [propext, Classical.choice, Quot.sound]
SBayes.Data.C57_whitespace_irrelevant: [propext, Classical.choice, Quot.sound]
SBayes.Data.C57_row_alignment: [propext, Classical.choice, Quot.sound]
SBayes.Data.C58_extracted_states_fit_partial: [propext, Classical.choice, Quot.sound]
SBayes.Data.C58_extracted_states_fit_false: [propext, Classical.choice, Quot.sound]
SBayes.Data.C59_empirical_prior_partial: [propext, Classical.choice, Quot.sound]
SBayes.Data.C59_empirical_prior_false: [propext, Classical.choice, Quot.sound]
SBayes.Data.C59_counts: [propext, Classical.choice, Quot.sound]
SBayes.Data.C59_limited_counts: [propext, Classical.choice, Quot.sound]
SBayes.Config.C43_paths: []
SBayes.Config.C43_set_defaults: [propext, Quot.sound]
SBayes.Config.C43_idempotent: [propext]
SBayes.Config.C43_update: [propext, Classical.choice, Quot.sound]
SBayes.Config.C43_iter_items: [propext, Quot.sound]
SBayes.Config.C44_each_pair_once: [propext, Classical.choice, Quot.sound]
SBayes.Config.C44_count: [propext, Quot.sound]
SBayes.Config.C44_files_differ: [propext, Classical.choice, Quot.sound]
SBayes.Config.C44_no_shared_file: [propext, Classical.choice, Quot.sound]
SBayes.Config.C44_run_config: [propext, Classical.choice, Quot.sound]
SBayes.Config.C44_open_paths: [propext, Classical.choice, Quot.sound]
SBayes.Config.C44_repeated_false: [propext, Classical.choice, Quot.sound]
SBayes.Config.C44_custom_settings_lost: [propext, Classical.choice, Quot.sound]
SBayes.Util.C46_normalize: [propext, Classical.choice, Quot.sound]
SBayes.Util.C46_normalize_axis0: [propext, Classical.choice, Quot.sound]
SBayes.Util.C46_idempotent: [propext, Classical.choice, Quot.sound]
SBayes.Util.C46_mle: [propext, Classical.choice, Quot.sound]
SBayes.Util.C46_assign_na: [propext, Classical.choice, Quot.sound]
SBayes.Util.C47_linear_rescale_partial: [propext, Classical.choice, Quot.sound]
SBayes.Util.C47_only_if_same_end: [propext, Classical.choice, Quot.sound]
SBayes.Util.C47_linear_rescale_false: [propext, Classical.choice, Quot.sound]
SBayes.Util.C48_round_single_int: [propext, Classical.choice, Quot.sound]
SBayes.Util.C48_up_moves_multiples: [propext, Classical.choice, Quot.sound]
SBayes.Util.C48_round_multiple_ints: [propext, Classical.choice, Quot.sound]
SBayes.Util.C48_round_multiple_ints_false: [propext]
SBayes.Util.C48_round_int: [propext, Classical.choice, Quot.sound]
SBayes.Util.C48_round_int_close: [propext, Classical.choice, Quot.sound]
SBayes.Util.C48_digits: [propext, Classical.choice, Quot.sound]
SBayes.Util.C48_round_int_false: [propext]
SBayes.Util.C60_max_size_list: [propext, Classical.choice, Quot.sound]
SBayes.Util.C61_n_smallest_idx: [propext, Classical.choice, Quot.sound]
SBayes.Util.C61_ties_false: [propext, Classical.choice, Quot.sound]
SBayes.Util.C61_bounding_box: [propext, Classical.choice, Quot.sound]
SBayes.Sim.C62_simulated_data_follow_likelihood: [propext, Classical.choice, Quot.sound]
SBayes.Sim.C62_likelihood_is_normalised: [propext, Classical.choice, Quot.sound]
SBayes.Sim.C63_states_per_feature: [propext, Quot.sound]
SBayes.Sim.C63_effect_row: [propext, Classical.choice, Quot.sound]
SBayes.Sim.C64_written_files_load: [propext, Classical.choice, Quot.sound]
SBayes.Posterior.C65_reference_model_agrees: [propext, Classical.choice, Quot.sound]
SBayes.Posterior.C65_values_differ: [propext, Classical.choice, Quot.sound]
SBayes.Posterior.C66_uncached_posterior: [propext, Classical.choice, Quot.sound]
SBayes.Posterior.C66_cached_posterior_up_to_geo: [propext, Classical.choice, Quot.sound]
SBayes.Posterior.C66_cached_posterior_partial: [propext, Classical.choice, Quot.sound]
SBayes.Posterior.C66_model_call_is_a_history: [propext, Classical.choice, Quot.sound]
SBayes.Posterior.C66_source_must_match_configuration: [propext, Classical.choice, Quot.sound]
SBayes.Posterior.C66_cached_posterior_false: [propext, Classical.choice, Quot.sound]
SBayes.Clusters.C67_cluster_posterior_is_the_membership_posterior_partial: [propext, Classical.choice, Quot.sound]
SBayes.Clusters.C67_missing_features_false: [propext, Classical.choice, Quot.sound]
SBayes.Sampler.C68_caches_are_unobservable_partial: [propext, Classical.choice, Quot.sound]
SBayes.Sampler.C68_self_checks_pass: [propext, Classical.choice, Quot.sound]
SBayes.Sampler.C68_self_check_of_the_prior: [propext, Classical.choice, Quot.sound]
SBayes.Sampler.C68_geo_prior_is_frozen_at_the_first_sample: [propext, Classical.choice, Quot.sound]
SBayes.Sampler.C68_geo_prior_has_no_influence: [propext, Classical.choice, Quot.sound]
SBayes.Sampler.C68_self_check_fails: [propext, Classical.choice, Quot.sound]
SBayes.Sampler.C69_log_is_the_log_of_the_ideal_run_partial: [propext, Classical.choice, Quot.sound]
SBayes.Sampler.C69_logging_does_not_change_the_step: [propext, Classical.choice, Quot.sound]
SBayes.Sampler.C69_logged_prior_false: [propext, Classical.choice, Quot.sound]
SBayes.Post.C70_rank: [propext, Classical.choice, Quot.sound]
SBayes.Post.C70_rank_exists: [propext, Classical.choice, Quot.sound]
SBayes.Post.C70_match_clusters_false: [propext, Classical.choice, Quot.sound]
SBayes.Post.C71_dic_partial: [propext, Classical.choice, Quot.sound]
SBayes.Post.C71_dic_none: [propext, Classical.choice, Quot.sound]
SBayes.Post.C71_dic_order: [propext, Classical.choice, Quot.sound]
SBayes.Post.C71_dic_false: [propext, Classical.choice, Quot.sound]
SBayes.Plot.C72_burn_in_partial: [propext, Classical.choice, Quot.sound]
SBayes.Plot.C72_burn_in_zero: [propext, Classical.choice, Quot.sound]
SBayes.Plot.C72_burn_in_false: [propext, Classical.choice, Quot.sound]
SBayes.Plot.C73_consensus_map: [propext, Classical.choice, Quot.sound]
SBayes.Plot.C73_consensus_map_gabriel: [propext, Classical.choice, Quot.sound]
SBayes.Plot.C73_consensus_map_exists: [propext, Classical.choice, Quot.sound]
SBayes.Plot.C73_density_map: [propext, Classical.choice, Quot.sound]
SBayes.Plot.C73_weight_le: [propext, Classical.choice, Quot.sound]
SBayes.Plot.C73_gabriel: [propext, Classical.choice, Quot.sound]
SBayes.Plot.C73_gabriel_keeps: [propext, Classical.choice, Quot.sound]
SBayes.Plot.C74_cells: [propext, Classical.choice, Quot.sound]
SBayes.Plot.C74_slices_sum: [propext]
SBayes.Plot.C74_slices: [propext, Classical.choice, Quot.sound]
SBayes.Plot.C74_pies_partial: [propext, Classical.choice, Quot.sound]
SBayes.Plot.C74_label_partial: [propext, Classical.choice, Quot.sound]
SBayes.Plot.C74_single_row_false: [propext]
SBayes.Plot.C74_label_false: [propext, Classical.choice, Quot.sound]
SBayes.Plot.C75_entries: [propext, Classical.choice, Quot.sound]
SBayes.Plot.C75_table: [propext, Classical.choice, Quot.sound]
SBayes.Plot.C76_legend_partial: [propext, Classical.choice, Quot.sound]
SBayes.Plot.C76_legend_false: [propext, Classical.choice, Quot.sound]
SBayes.Sampler.C77_contributions_of_single_clusters: [propext, Classical.choice, Quot.sound]
SBayes.Sampler.C77_contributions_follow_the_matching: [propext, Classical.choice, Quot.sound]
SBayes.Log.C78_file_reads_back: [propext, Classical.choice, Quot.sound]
SBayes.Log.C78_file_determines_counts: [propext, Classical.choice, Quot.sound]
SBayes.Log.C78_totals_count_the_steps: [propext, Classical.choice, Quot.sound]
SBayes.Log.C78_names_distinct_iff: [propext, Classical.choice, Quot.sound]
SBayes.Log.C78_row_names_false: [propext, Classical.choice, Quot.sound]
SBayes.Log.C79_interrupted_run: [propext, Classical.choice, Quot.sound]
SBayes.Log.C79_uninterrupted_run: [propext, Classical.choice, Quot.sound]
SBayes.Log.C79_loading_an_interrupted_run: [propext, Classical.choice, Quot.sound]
SBayes.Log.C79_incomplete_line_is_noticed: [propext, Classical.choice, Quot.sound]
SBayes.Log.C79_same_number_of_samples_false: [propext, Classical.choice, Quot.sound]
SBayes.Log.C79_operator_statistics_kept_false: [propext, Classical.choice, Quot.sound]
SBayes.Kernel.C80_sampler_leaves_posterior_invariant: [propext, Classical.choice, Quot.sound]
SBayes.Kernel.C80_sampler_without_sources_leaves_posterior_invariant: [propext, Classical.choice, Quot.sound]
SBayes.Kernel.C80_density_with_sources: [propext, Classical.choice, Quot.sound]
SBayes.Kernel.C80_density_without_sources: [propext, Classical.choice, Quot.sound]
SBayes.Kernel.C81_posterior_is_proper: [propext, Classical.choice, Quot.sound]
SBayes.Kernel.C81_normalized_posterior_is_invariant: [propext, Classical.choice, Quot.sound]
SBayes.Kernel.C81_normalized_posterior_is_invariant_without_sources: [propext, Classical.choice, Quot.sound]
SBayes.Clusters.C82_alterCluster_reaches_every_configuration: [propext, Classical.choice, Quot.sound]
SBayes.Clusters.C82_gibbsish_reaches_every_configuration: [propext, Classical.choice, Quot.sound]
SBayes.Clusters.C82_gibbsish2_reaches_every_configuration: [propext, Classical.choice, Quot.sound]
SBayes.Clusters.C82_alterCluster_fixed_size_false: [propext, Classical.choice, Quot.sound]
SBayes.Clusters.C82_only_neighbours_false: [propext, Classical.choice, Quot.sound]
SBayes.Kernel.C83_posterior_is_the_only_equilibrium: [propext, Classical.choice, Quot.sound]
SBayes.Kernel.C84_sampling_never_fails: [propext, Classical.choice, Quot.sound]
SBayes.Kernel.C85_averages_converge: [propext, Classical.choice, Quot.sound]
SBayes.Kernel.C85_frequencies_converge: [propext, Classical.choice, Quot.sound]
SBayes.Validate.C86_accepted_configurations_are_valid: [propext, Classical.choice, Quot.sound]
SBayes.Validate.C86_settings_are_those_of_the_file: [propext, Classical.choice, Quot.sound]
SBayes.Validate.C86_unknown_settings_are_rejected: [propext, Classical.choice, Quot.sound]
SBayes.Validate.C86_confounding_priors_are_those_of_the_file: [propext, Classical.choice, Quot.sound]
SBayes.Validate.C86_custom_settings_come_first: [propext, Classical.choice, Quot.sound]
SBayes.Validate.C86_without_custom_settings: [propext, Classical.choice, Quot.sound]
SBayes.Validate.C86_update_with_nothing: [propext, Classical.choice, Quot.sound]
SBayes.Validate.C86_required_despite_default: [propext, Classical.choice, Quot.sound]
SBayes.Validate.C86_documented_configurations_are_accepted: [propext, Classical.choice, Quot.sound]
SBayes.Validate.C86_no_in_quotes: [propext, Classical.choice, Quot.sound]
SBayes.Build.C87_run_is_what_the_inputs_say: [propext, Classical.choice, Quot.sound]
SBayes.Build.C87_runs_iff: [propext, Classical.choice, Quot.sound]
SBayes.Build.C87_run_is_well_posed: [propext, Classical.choice, Quot.sound]
SBayes.Build.C87_samples_approach_the_posterior: [propext, Classical.choice, Quot.sound]
SBayes.Build.C87_configured_runs_converge: [propext, Classical.choice, Quot.sound]
SBayes.Build.C87_accepted_configurations_may_not_run: [propext, Classical.choice, Quot.sound]
SBayes.Kernel.C88_runs_from_any_start: [propext, Classical.choice, Quot.sound]
SBayes.Kernel.C88_averages_converge_from_any_start: [propext, Classical.choice, Quot.sound]
SBayes.Kernel.C88_whole_run_converges: [propext, Classical.choice, Quot.sound]
SBayes.Kernel.C88_whole_run_frequencies: [propext, Classical.choice, Quot.sound]
SBayes.Kernel.C88_whole_run_succeeds: [propext, Classical.choice, Quot.sound]
SBayes.Kernel.C88_main_run_continues: [propext, Classical.choice, Quot.sound]
SBayes.Kernel.C88_warm_up_returns_the_best: [propext, Classical.choice, Quot.sound]
SBayes.Kernel.C89_posterior_is_the_only_equilibrium: [propext, Classical.choice, Quot.sound]
SBayes.Kernel.C89_sampling_never_fails: [propext, Classical.choice, Quot.sound]
SBayes.Kernel.C89_averages_converge: [propext, Classical.choice, Quot.sound]
SBayes.Kernel.C89_frequencies_converge: [propext, Classical.choice, Quot.sound]
SBayes.Kernel.C89_fixed_size_false: [propext, Classical.choice, Quot.sound]
SBayes.Kernel.C90_runs_from_any_start: [propext, Classical.choice, Quot.sound]
SBayes.Kernel.C90_averages_converge_from_any_start: [propext, Classical.choice, Quot.sound]
SBayes.Kernel.C90_whole_run_converges: [propext, Classical.choice, Quot.sound]
SBayes.Kernel.C90_whole_run_frequencies: [propext, Classical.choice, Quot.sound]
SBayes.Kernel.C90_whole_run_succeeds: [propext, Classical.choice, Quot.sound]
SBayes.Kernel.C90_main_run_continues: [propext, Classical.choice, Quot.sound]
SBayes.Kernel.C91_density_with_sources: [propext, Classical.choice, Quot.sound]
SBayes.Kernel.C91_density_without_sources: [propext, Classical.choice, Quot.sound]
SBayes.Kernel.C91_leaves_prior_invariant: [propext, Classical.choice, Quot.sound]
SBayes.Kernel.C91_prior_is_the_only_equilibrium: [propext, Classical.choice, Quot.sound]
SBayes.Kernel.C91_runs_from_any_start: [propext, Classical.choice, Quot.sound]
SBayes.Kernel.C91_whole_run_converges: [propext, Classical.choice, Quot.sound]
SBayes.Kernel.C91_whole_run_succeeds: [propext, Classical.choice, Quot.sound]
SBayes.Kernel.C91_runs_from_any_start_without_sources: [propext, Classical.choice, Quot.sound]
SBayes.Kernel.C91_whole_run_converges_without_sources: [propext, Classical.choice, Quot.sound]
SBayes.Kernel.C91_whole_run_succeeds_without_sources: [propext, Classical.choice, Quot.sound]
SBayes.Kernel.C91_clusters_are_independent_of_effects: [propext, Classical.choice, Quot.sound]
SBayes.Kernel.C91_cluster_frequencies: [propext, Classical.choice, Quot.sound]
SBayes.Kernel.C91_cluster_frequencies_without_sources: [propext, Classical.choice, Quot.sound]
SBayes.Kernel.C91_cluster_prior_is_a_distribution: [propext, Classical.choice, Quot.sound]
SBayes.Kernel.C92_same_posterior: [propext, Classical.choice, Quot.sound]
SBayes.Kernel.C92_same_answer: [propext, Classical.choice, Quot.sound]
SBayes.Kernel.C93_loaded_fractions_converge: [propext, Classical.choice, Quot.sound]
SBayes.Kernel.C93_loaded_weights_converge: [propext, Classical.choice, Quot.sound]
SBayes.Kernel.C93_loaded_confounding_converges: [propext, Classical.choice, Quot.sound]
SBayes.Kernel.C93_loaded_cluster_effects_converge: [propext, Classical.choice, Quot.sound]
SBayes.Kernel.C93_loaded_cluster_effects_converge_no_source: [propext, Classical.choice, Quot.sound]
SBayes.Kernel.C93_loaded_fractions_converge_no_source: [propext, Classical.choice, Quot.sound]
SBayes.Kernel.C93_loaded_weights_converge_no_source: [propext, Classical.choice, Quot.sound]
SBayes.Kernel.C93_loaded_confounding_converges_no_source: [propext, Classical.choice, Quot.sound]
SBayes.Par.C94_each_run_as_if_alone: [propext, Classical.choice, Quot.sound]
SBayes.Par.C94_other_files_untouched: [propext, Classical.choice, Quot.sound]
SBayes.Par.C94_configuration_copied: [propext, Classical.choice, Quot.sound]
SBayes.Par.C94_parallel_equals_sequential: [propext, Classical.choice, Quot.sound]
SBayes.Par.C94_runs_end: [propext, Classical.choice, Quot.sound]
SBayes.Par.C94_log: [propext, Classical.choice, Quot.sound]
SBayes.Par.C94_text_files: [propext, Classical.choice, Quot.sound]
SBayes.Par.C94_complete_results: [propext, Classical.choice, Quot.sound]
SBayes.Par.C94_default_name: [propext, Quot.sound]
SBayes.Par.C94_same_name_iff_same_minute: [propext, Quot.sound]
SBayes.Par.C94_same_minute_keeps_results_false: [propext, Classical.choice, Quot.sound]
SBayes.Gen.C95_runs_of_one_process_are_independent: [propext, Classical.choice, Quot.sound]
SBayes.Gen.C95_runs_of_spawned_processes_are_independent: [propext, Classical.choice, Quot.sound]
SBayes.Gen.C95_runs_of_one_forked_process_are_independent: [propext, Classical.choice, Quot.sound]
SBayes.Gen.C95_forked_processes_draw_the_same_numbers: []
SBayes.Gen.C95_forked_runs_have_the_same_first_operator: [propext, Quot.sound]
SBayes.Gen.C95_runs_of_forked_processes_are_independent_false: [propext, Classical.choice, Quot.sound]
SBayes.Simplex.C96_corners_after_other_plots: [propext, Classical.choice, Quot.sound]
SBayes.Simplex.C96_similar_to_a_new_plot: [propext, Classical.choice, Quot.sound]
SBayes.Simplex.C96_same_call_same_figure_false: [propext, Classical.choice, Quot.sound]
SBayes.Simplex.C96_samples_in_the_polygon: [propext, Classical.choice, Quot.sound]
SBayes.Simplex.C96_nothing_is_cut_off: [propext, Classical.choice, Quot.sound]
SBayes.Simplex.C96_corner_is_certainty: [propext, Classical.choice, Quot.sound]
SBayes.Simplex.C96_labels: [propext, Classical.choice, Quot.sound]
SBayes.Simplex.C96_mean: [propext, Classical.choice, Quot.sound]
SBayes.Simplex.C96_position_determines_three_weights: [propext, Classical.choice, Quot.sound]
SBayes.Simplex.C96_position_determines_weights_false: [propext, Classical.choice, Quot.sound]
SBayes.Simplex.C96_weights_of_two_components_false: [propext, Classical.choice, Quot.sound]
SBayes.Simplex.C96_outside_is_hidden: [propext, Classical.choice, Quot.sound]
SBayes.PlotMain.C97_plots_made: [propext, Classical.choice, Quot.sound]
SBayes.PlotMain.C97_settings: [propext, Classical.choice, Quot.sound]
SBayes.PlotMain.C97_map_for_a_threshold: [propext, Classical.choice, Quot.sound]
SBayes.PlotMain.C97_weight_settings_used_false: [propext, Classical.choice, Quot.sound]
SBayes.PlotMain.C97_only_if_in_the_file_false: [propext, Classical.choice, Quot.sound]
SBayes.PlotMain.C97_types_as_texts_false: [propext, Classical.choice, Quot.sound]
SBayes.PlotMain.C97_without_arguments_false: [propext, Classical.choice, Quot.sound]
SBayes.PlotMain.C97_map_for_each_threshold_false: [propext, Classical.choice, Quot.sound]
SBayes.PlotMain.C98_files_of_the_same_run: [propext, Classical.choice, Quot.sound]
SBayes.PlotMain.C98_model_name: [propext, Classical.choice, Quot.sound]
SBayes.PlotMain.C98_models: [propext, Classical.choice, Quot.sound]
SBayes.PlotMain.C98_dic_plot: [propext, Classical.choice, Quot.sound]
SBayes.PlotMain.C98_missing_file_noticed_false: [propext, Classical.choice, Quot.sound]
SBayes.PlotMain.C98_different_depths_false: [propext, Classical.choice, Quot.sound]
SBayes.PlotMain.C98_same_names_false: [propext, Classical.choice, Quot.sound]
SBayes.PlotMain.C98_number_zero_false: [propext, Classical.choice, Quot.sound]
SBayes.WholeMap.C99_map_is_made: [propext, Classical.choice, Quot.sound]
SBayes.WholeMap.C99_extent: [propext, Classical.choice, Quot.sound]
SBayes.WholeMap.C99_all_objects_are_shown: [propext, Classical.choice, Quot.sound]
SBayes.WholeMap.C99_colors: [propext, Quot.sound]
SBayes.WholeMap.C99_marked: [propext, Classical.choice, Quot.sound]
SBayes.WholeMap.C99_marked_once: [propext, Classical.choice, Quot.sound]
SBayes.WholeMap.C99_lines: [propext, Classical.choice, Quot.sound]
SBayes.WholeMap.C99_labels: [propext, Classical.choice, Quot.sound]
SBayes.WholeMap.C99_legend: [propext, Classical.choice, Quot.sound]
SBayes.WholeMap.C99_table: [propext, Classical.choice, Quot.sound]
SBayes.WholeMap.C99_numbers_on_the_map_are_in_the_table: [propext, Classical.choice, Quot.sound]
SBayes.WholeMap.C99_marked_once_default_false: [propext, Classical.choice, Quot.sound]
SBayes.WholeMap.C99_more_than_256_clusters_false: [propext, Quot.sound]
SBayes.WholeMap.C99_in_cluster_labels_false: [propext, Classical.choice, Quot.sound]
SBayes.WholeMap.C99_density_table_false: [propext, Classical.choice, Quot.sound]
SBayes.Reorder.C100_posterior_does_not_depend_on_the_order: [propext, Classical.choice, Quot.sound]
SBayes.Reorder.C100_posterior_distribution: [propext, Classical.choice, Quot.sound]
SBayes.Reorder.C100_posterior_distribution_no_source: [propext, Classical.choice, Quot.sound]
SBayes.Reorder.C100_whole_run_converges: [propext, Classical.choice, Quot.sound]
SBayes.Reorder.C100_whole_run_converges_no_source: [propext, Classical.choice, Quot.sound]
SBayes.SimRun.C101_joint_law: [propext, Classical.choice, Quot.sound]
SBayes.SimRun.C101_is_probability: [propext, Classical.choice, Quot.sound]
SBayes.SimRun.C101_simulation_is_the_model: [propext, Classical.choice, Quot.sound]
SBayes.SimRun.C101_credible_sets_are_calibrated: [propext, Classical.choice, Quot.sound]
SBayes.SimRun.C101_calibrated_with_sources: [propext, Classical.choice, Quot.sound]
SBayes.SimRun.C101_every_canvas_works: [propext, Classical.choice, Quot.sound]
SBayes.SimConfig.C102_required_fields: [propext, Classical.choice, Quot.sound]
SBayes.SimConfig.C102_values_kept: [propext, Classical.choice, Quot.sound]
SBayes.SimConfig.C102_loads: [propext, Classical.choice, Quot.sound]
SBayes.SimConfig.C102_own_states_partial: [propext, Classical.choice, Quot.sound]
SBayes.SimConfig.C102_own_shares: [propext, Classical.choice, Quot.sound]
SBayes.SimConfig.C102_default_shares_stay: [propext, Classical.choice, Quot.sound]
SBayes.SimConfig.C102_own_states_false: [propext, Classical.choice, Quot.sound]
SBayes.SimConfig.C102_files_partial: [propext]
SBayes.SimConfig.C102_default_path_false: [propext, Classical.choice, Quot.sound]
SBayes.Rounding.C103_component_likelihoods_are_exact: [propext, Classical.choice, Quot.sound]
SBayes.Rounding.C103_log_likelihood_without_sources: [propext, Classical.choice, Quot.sound]
SBayes.Rounding.C103_log_likelihood_with_sources: [propext, Classical.choice, Quot.sound]
SBayes.Rounding.C103_log_source_prior: [propext, Classical.choice, Quot.sound]
SBayes.Rounding.C103_error_bound_for_doubles: [propext, Classical.choice, Quot.sound]
SBayes.Rounding.C103_mh_ratio_error: [propext, Classical.choice, Quot.sound]
SBayes.Rounding.C103_decision_changes_rarely: [propext, Classical.choice, Quot.sound]
SBayes.Rounding.C104_excluded_component_is_never_drawn: [propext, Classical.choice, Quot.sound]
SBayes.Rounding.C104_first_component_needs_total_below_one: [propext, Classical.choice, Quot.sound]
SBayes.Rounding.C104_rounded_draw_rarely_differs: [propext, Classical.choice, Quot.sound]
SBayes.Rounding.C104_gibbs_source_draw: [propext, Classical.choice, Quot.sound]
SBayes.Rounding.C104_bound_for_doubles: [propext, Classical.choice, Quot.sound]
SBayes.Rounding.C104_outsider_gets_cluster_source_false: [propext, Classical.choice, Quot.sound]
SBayes.Double.C105_certain_member_has_probability_one: [propext, Classical.choice, Quot.sound]
SBayes.Double.C105_shrinking_a_certain_cluster_raises: [propext, Classical.choice, Quot.sound]
SBayes.Double.C105_underflow_raises: [propext, Classical.choice, Quot.sound]
SBayes.Double.C105_doubtful_member_has_probability_below_one: [propext, Classical.choice, Quot.sound]
SBayes.Double.C105_shrink_draws_partial: [propext, Classical.choice, Quot.sound]
SBayes.Double.C105_grow_draws_partial: [propext, Classical.choice, Quot.sound]
SBayes.Double.C105_shrinking_raises_false: [propext, Classical.choice, Quot.sound]
SBayes.Double.C105_many_features_raise_false: [propext, Classical.choice, Quot.sound]
SBayes.Double.C106_certain_object_is_never_added: [propext, Classical.choice, Quot.sound]
SBayes.Double.C106_certain_object_blocks_the_cluster: [propext, Classical.choice, Quot.sound]
SBayes.Double.C106_doubtful_object_can_be_added_partial: [propext, Classical.choice, Quot.sound]
SBayes.Double.C106_doubtful_objects_can_be_redrawn_partial: [propext, Classical.choice, Quot.sound]
SBayes.Double.C106_last_object_is_never_added_false: [propext, Classical.choice, Quot.sound]
SBayes.Settings.C107_skeleton_is_ignored: [propext, Classical.choice, Quot.sound]
SBayes.Settings.C107_skeleton_false: [propext, Classical.choice, Quot.sound]
SBayes.Settings.C107_grow_to_adjacent_is_ignored: [propext, Classical.choice, Quot.sound]
SBayes.Settings.C107_grow_to_adjacent_is_passed_on: [propext, Classical.choice, Quot.sound]
SBayes.Settings.C107_grow_to_adjacent_favours_neighbours: [propext, Classical.choice, Quot.sound]
SBayes.Settings.C107_warmup_settings_are_ignored: [propext, Classical.choice, Quot.sound]
SBayes.Settings.C107_warmup_limits_false: [propext, Classical.choice, Quot.sound]
SBayes.Missing.C108_given_costs_partial: [propext, Classical.choice, Quot.sound]
SBayes.Missing.geoPrior_fin: [propext, Classical.choice, Quot.sound]
SBayes.Missing.C108_given_costs_are_read: [propext, Classical.choice, Quot.sound]
SBayes.Missing.C108_missing_cells_are_accepted: [propext, Classical.choice, Quot.sound]
SBayes.Missing.C108_missing_pairs_contribute_nothing: [propext, Classical.choice, Quot.sound]
SBayes.Missing.C108_unreachable_objects_are_free: [propext, Classical.choice, Quot.sound]
SBayes.Missing.C108_unreachable_object_is_free: [propext, Classical.choice, Quot.sound]
SBayes.Missing.C108_infinite_cost_is_preferred_false: [propext, Classical.choice, Quot.sound]
SBayes.Missing.exists_minForest: [propext, Classical.choice, Quot.sound]
SBayes.Missing.C108_three_objects: [propext, Classical.choice, Quot.sound]
SBayes.Data.C109_concentrations: [propext, Classical.choice, Quot.sound]
SBayes.Data.C109_usable_iff_complete: [propext, Classical.choice, Quot.sound]
SBayes.Data.C109_fails_iff_text: [propext, Classical.choice, Quot.sound]
SBayes.Data.C109_gives_unique: [propext, Classical.choice, Quot.sound]
SBayes.Data.C109_repeated_features_are_reported_false: [propext, Classical.choice, Quot.sound]
SBayes.SetupLog.C110_log_determines_setup_partial: [propext, Classical.choice, Quot.sound]
SBayes.SetupLog.C110_log_shows_settings: [propext, Classical.choice, Quot.sound]
SBayes.SetupLog.C110_log_determines_priors_false: [propext, Classical.choice, Quot.sound]
SBayes.Sampler.C111_likelihood_file: [propext, Classical.choice, Quot.sound]
SBayes.Sampler.C111_no_file_when_sampling_from_the_prior: [propext, Quot.sound]
SBayes.Sampler.C111_missing_observations: [propext, Classical.choice, Quot.sound]
SBayes.Sampler.C111_assumption_is_needed: [propext, Quot.sound]
SBayes.Validate.C112_completed_template: [propext, Classical.choice, Quot.sound]
SBayes.Validate.C112_placeholders_are_rejected: [propext, Classical.choice, Quot.sound]
SBayes.Validate.C112_placeholders_of_the_template: [propext, Classical.choice, Quot.sound]
SBayes.Validate.C112_optional_lines_must_be_edited: [propext, Classical.choice, Quot.sound]
SBayes.PlotConfig.C113_values_kept: [propext, Classical.choice, Quot.sound]
SBayes.PlotConfig.C113_projection_partial: [propext, Classical.choice, Quot.sound]
SBayes.PlotConfig.C113_projection_unset: [propext, Classical.choice, Quot.sound]
SBayes.PlotConfig.C113_projection_false: [propext, Classical.choice, Quot.sound]
SBayes.PlotConfig.C113_labels: [propext, Classical.choice, Quot.sound]
SBayes.PlotConfig.C113_paths: [propext, Classical.choice, Quot.sound]
SBayes.PlotConfig.C113_loads: [propext, Classical.choice, Quot.sound]
SBayes.PlotConfig.C113_required_false: [propext, Classical.choice, Quot.sound]
SBayes.PlotConfig.C113_single_path: [propext, Classical.choice, Quot.sound]
SBayes.PlotConfig.C113_single_path_false: [propext, Classical.choice, Quot.sound]
SBayes.Kernel.C114_averages_settle: [propext, Classical.choice, Quot.sound]
SBayes.Kernel.C114_whole_run_settles: [propext, Classical.choice, Quot.sound]
SBayes.Kernel.C114_whole_run_frequencies_settle: [propext, Classical.choice, Quot.sound]
SBayes.Kernel.C114_averages_settle_without_sources: [propext, Classical.choice, Quot.sound]
SBayes.Kernel.C114_whole_run_settles_without_sources: [propext, Classical.choice, Quot.sound]
SBayes.Kernel.C114_whole_run_frequencies_settle_without_sources: [propext, Classical.choice, Quot.sound]
SBayes.Kernel.C115_posterior_is_symmetric: [propext, Classical.choice, Quot.sound]
SBayes.Kernel.C115_posterior_is_symmetric_without_sources: [propext, Classical.choice, Quot.sound]
SBayes.Kernel.C115_unmatched_frequencies_agree: [propext, Classical.choice, Quot.sound]
SBayes.Kernel.C115_unmatched_frequencies_agree_without_sources: [propext, Classical.choice, Quot.sound]
SBayes.Kernel.C116_sizes_are_uniform: [propext, Classical.choice, Quot.sound]
SBayes.Kernel.C116_sizes_are_uniform_without_sources: [propext, Classical.choice, Quot.sound]
SBayes.Kernel.C117_assignments_are_uniform: [propext, Classical.choice, Quot.sound]
SBayes.Kernel.C117_assignments_are_uniform_without_sources: [propext, Classical.choice, Quot.sound]
SBayes.Kernel.C118_quadratic_frequencies: [propext, Classical.choice, Quot.sound]
SBayes.Kernel.C118_quadratic_frequencies_without_sources: [propext, Classical.choice, Quot.sound]
SBayes.Kernel.C119_weights_and_effects_are_uniform: [propext, Classical.choice, Quot.sound]
SBayes.Kernel.C119_weights_and_effects_are_uniform_without_sources: [propext, Classical.choice, Quot.sound]
SBayes.Kernel.C120_all_parameters_follow_the_prior: [propext, Classical.choice, Quot.sound]
SBayes.Kernel.C120_all_parameters_follow_the_prior_without_sources: [propext, Classical.choice, Quot.sound]
