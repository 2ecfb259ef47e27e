{
 "claims": [
  {
   "property": "C01",
   "status": "proved",
   "theorems": [
    "Verif.Split.kfold_tests_partition",
    "Verif.Split.kfold_test_is_fold",
    "Verif.Split.kfold_dtindex_empty_test"
   ],
   "note": "Partition, order, and exact membership of each test set. kfold_dtindex_empty_test is the recorded exception: DatetimeIndex groups can yield an empty test set."
  },
  {
   "property": "C02",
   "status": "proved",
   "theorems": [
    "Verif.Split.kfold_no_shared_label",
    "Verif.Split.kfold_tests_no_shared_label"
   ],
   "note": "All group kinds."
  },
  {
   "property": "C03",
   "status": "proved",
   "theorems": [
    "Verif.Split.kfold_train_exact"
   ],
   "note": "An iff for every index."
  },
  {
   "property": "C04",
   "status": "proved",
   "theorems": [
    "Verif.Split.kfold_look_forward"
   ],
   "note": ""
  },
  {
   "property": "C05",
   "status": "proved",
   "theorems": [
    "Verif.Split.kfold_split_count"
   ],
   "note": "Finishes iff the number of yielded splits is get_n_splits."
  },
  {
   "property": "C06",
   "status": "proved",
   "theorems": [
    "Verif.Split.kfold_even_folds",
    "Verif.Split.kfold_distinct_only_valueError"
   ],
   "note": ""
  },
  {
   "property": "C07",
   "status": "proved",
   "theorems": [
    "Verif.Split.kfold_finishes_iff",
    "Verif.Split.kfold_error_class",
    "Verif.Split.kfold_series_keyError",
    "Verif.Split.kfold_constructor"
   ],
   "note": ""
  },
  {
   "property": "C08",
   "status": "proved",
   "theorems": [
    "Verif.Split.kfold_timedelta_never_yields",
    "Verif.Split.kfold_type_combinations"
   ],
   "note": ""
  },
  {
   "property": "C09",
   "status": "proved",
   "theorems": [
    "Verif.Split.kfold_purge_embargo_monotone",
    "Verif.Split.kfold_zero_complement"
   ],
   "note": ""
  },
  {
   "property": "C10",
   "status": "proved",
   "theorems": [
    "Verif.Split.walk_train_before_test",
    "Verif.Split.walk_weak_order",
    "Verif.Split.walk_first_split_disjoint_iff",
    "Verif.Split.walk_business_day_leak",
    "Verif.Split.walk_series_always_raises"
   ],
   "note": "The unrestricted strict order is false (walk_business_day_leak); the exact condition for the first split is proved."
  },
  {
   "property": "C100",
   "status": "proved",
   "theorems": [
    "Verif.Round.round_sum_id_agrees",
    "Verif.Round.sum_round_error",
    "Verif.Round.sum_round_error_any",
    "Verif.Round.sum_round_int",
    "Verif.Round.mean_round_error",
    "Verif.Round.constant_mean_off",
    "Verif.Round.constant_std_positive",
    "Verif.Round.path_round_error",
    "Verif.Round.path_round_step",
    "Verif.Round.path_round_direction",
    "Verif.Round.path_round_int",
    "Verif.Round.path_round_stuck",
    "Verif.Round.gbm_round_pos",
    "Verif.Round.rsi_round_range",
    "Verif.Round.bands_round_order"
   ],
   "note": "round_sum_id_agrees ties the rounded functions to the exact models. constant_mean_off, constant_std_positive and path_round_stuck are findings about rounding."
  },
  {
   "property": "C101",
   "status": "proved",
   "theorems": [
    "Verif.Dist.welford_id",
    "Verif.Dist.pearson_eq",
    "Verif.Dist.spearman_eq",
    "Verif.Dist.rank_lt_iff",
    "Verif.Dist.pandas_corr_spec",
    "Verif.Dist.corr_matrix_entries",
    "Verif.Dist.corr_matrix_array",
    "Verif.Dist.corr_matrix_triangle",
    "Verif.Dist.missing_breaks_triangle",
    "Verif.Dist.pearson_matrix_affine",
    "Verif.Dist.spearman_matrix_monotone",
    "Verif.Dist.spearman_zero_iff",
    "Verif.Dist.corr_matrix_rows"
   ],
   "note": "DataFrame.corr (pandas 2.2, nancorr and nancorr_spearman) is modelled; missing_breaks_triangle is a finding"
  },
  {
   "property": "C102",
   "status": "proved",
   "theorems": [
    "Verif.Round.b64_sqrt_sq",
    "Verif.Round.welford_nonneg",
    "Verif.Round.pearson_round_power",
    "Verif.Round.corr_round_diag",
    "Verif.Round.corr_round_accepted",
    "Verif.Round.pearson_round_constant",
    "Verif.Round.pearson_round_order"
   ],
   "note": "pearson_round_order is a finding"
  },
  {
   "property": "C103",
   "status": "proved",
   "theorems": [
    "Verif.Clust.zero_together",
    "Verif.Clust.hc_frame",
    "Verif.Clust.hc_array",
    "Verif.Clust.hc_data_clusters",
    "Verif.Clust.hc_alike_together",
    "Verif.Clust.missing_separates",
    "Verif.Clust.pearson_matrix_signs",
    "Verif.Clust.hc_units"
   ],
   "note": "pandas correlations as in C101, scipy's linkage any function meeting LinkageSpec; missing_separates is a finding"
  },
  {
   "property": "C104",
   "status": "proved",
   "theorems": [
    "Verif.Props.IndLaw.rsi_limit",
    "Verif.Props.IndLaw.rsi_level",
    "Verif.Props.IndLaw.mom_limit",
    "Verif.Props.IndLaw.mean_limit",
    "Verif.Props.IndLaw.std_limit",
    "Verif.Props.IndLaw.bollinger_limit",
    "Verif.Props.IndLaw.ewmMean_law",
    "Verif.Props.IndLaw.ewmStd_law",
    "Verif.Props.IndLaw.ewmMom_law",
    "Verif.Props.IndLaw.macd_law",
    "Verif.Props.IndLaw.macd_walk",
    "Verif.Props.IndLaw.exists_walk"
   ],
   "note": "real arithmetic; exists_walk gives a walk with normal changes of any drift to which all of them apply"
  },
  {
   "property": "C105",
   "status": "proved",
   "theorems": [
    "Verif.Info.edge_err",
    "Verif.Info.edge_strict",
    "Verif.Info.bin2_spec",
    "Verif.Info.guess_close",
    "Verif.Info.bin1_eq_bin2",
    "Verif.Info.info_rounded",
    "Verif.Info.one_binR_iff",
    "Verif.Info.mi_rounded",
    "Verif.Info.vi_rounded",
    "Verif.Info.vi_rounded_triangle",
    "Verif.Info.labR_exact",
    "Verif.Info.info_rounded_exact",
    "Verif.Info.shift_changes_bins",
    "Verif.Info.narrow_edges"
   ],
   "note": "entropies of the counts in real arithmetic; numpy's histogram functions modelled from their documentation and algorithm, the number of bins given"
  },
  {
   "property": "C106",
   "status": "proved",
   "theorems": [
    "Verif.Roll.mean_exact",
    "Verif.Roll.var_exact",
    "Verif.Roll.std_exact",
    "Verif.Roll.mean_nan_iff",
    "Verif.Roll.mean_sign",
    "Verif.Roll.mean_correct",
    "Verif.Roll.mean_whole",
    "Verif.Roll.mean_error",
    "Verif.Roll.kahan_step",
    "Verif.Roll.var_shape",
    "Verif.Roll.std_shape",
    "Verif.Roll.bad_tick_std",
    "Verif.Roll.large_mean"
   ],
   "note": "pandas' roll_mean and roll_var modelled from their published algorithm; bad_tick_std and large_mean are findings"
  },
  {
   "property": "C107",
   "status": "proved",
   "theorems": [
    "Verif.Roll.ind_round_id",
    "Verif.Roll.rsi_rounded",
    "Verif.Roll.rsi_one_way",
    "Verif.Roll.rsi_ticks",
    "Verif.Roll.bollinger_rounded",
    "Verif.Roll.donchian_rounded",
    "Verif.Roll.donchian_outside",
    "Verif.Roll.ewm_error",
    "Verif.Roll.factor_err",
    "Verif.Roll.ema_error",
    "Verif.Roll.flat_exact"
   ],
   "note": "rounded indicators equal the exact ones with fl = id (ind_round_id); donchian_outside is a finding"
  },
  {
   "property": "C108",
   "status": "proved",
   "theorems": [
    "Verif.Roll.micro_round_id",
    "Verif.Roll.sum_exact",
    "Verif.Roll.cov_exact",
    "Verif.Roll.highLow_round",
    "Verif.Roll.rogersSatchell_round",
    "Verif.Roll.yangZhang_round",
    "Verif.Roll.kyle_round",
    "Verif.Roll.hasbrouck_round",
    "Verif.Roll.amihud_round",
    "Verif.Roll.vpin_round",
    "Verif.Roll.buy_round",
    "Verif.Roll.corwinSchultz_round",
    "Verif.Roll.beckerParkinson_round",
    "Verif.Roll.roll_round",
    "Verif.Roll.flat_bars",
    "Verif.Roll.flat_prices",
    "Verif.Roll.negative_sum",
    "Verif.Roll.negative_volatility"
   ],
   "note": "rounded features equal the exact ones with fl = id (micro_round_id); negative_sum and negative_volatility are findings"
  },
  {
   "property": "C109",
   "status": "proved",
   "theorems": [
    "Verif.Props.Cusum.cusum_round_id",
    "Verif.Props.Cusum.cusum_round",
    "Verif.Props.Cusum.cusum_round_error",
    "Verif.Props.Cusum.cusum_round_neg",
    "Verif.Props.Cusum.cusum_round_constant",
    "Verif.Props.Cusum.never_rejects_early_round",
    "Verif.Props.Cusum.first_rise_rejects_round",
    "Verif.Props.Cusum.first_rise_seen",
    "Verif.Props.Cusum.log_collision",
    "Verif.Props.Cusum.cusum_blind"
   ],
   "note": "the rounded test equals the exact one with fl = id (cusum_round_id); cusum_blind is a finding"
  },
  {
   "property": "C11",
   "status": "proved",
   "theorems": [
    "Verif.Split.walk_train_before_test",
    "Verif.Split.walk_weak_order",
    "Verif.Split.walk_business_day_leak"
   ],
   "note": ""
  },
  {
   "property": "C110",
   "status": "proved",
   "theorems": [
    "Verif.Sim.sim_round_id",
    "Verif.Sim.bm_round_errors",
    "Verif.Sim.gbm_round_errors",
    "Verif.Sim.ou_round_errors",
    "Verif.Sim.bm_round_error",
    "Verif.Sim.gbm_round_error",
    "Verif.Sim.gbm_start_moves",
    "Verif.Sim.gbm_default_start",
    "Verif.Sim.ou_constants",
    "Verif.Sim.ou_round_error",
    "Verif.Sim.ou_round_bounded",
    "Verif.Sim.ouRho_lt",
    "Verif.Sim.ou_frozen"
   ],
   "note": "the rounded samplers equal the exact ones with fl = id (sim_round_id); gbm_default_start and ou_frozen are findings"
  },
  {
   "property": "C111",
   "status": "proved",
   "theorems": [
    "Verif.Sim.fit_round_id",
    "Verif.Sim.bm_fit_drift_round",
    "Verif.Sim.gbm_fit_drift_round",
    "Verif.Sim.bm_fit_vol_round",
    "Verif.Sim.gbm_fit_vol_round",
    "Verif.Sim.bm_fit_valueError_round",
    "Verif.Sim.gbm_fit_valueError_round",
    "Verif.Sim.bm_fit_cor_round",
    "Verif.Sim.gbm_fit_cor_round",
    "Verif.Sim.bm_fit_drift_grid",
    "Verif.Sim.bm_fit_line_grid",
    "Verif.Sim.bm_fit_trend_evades"
   ],
   "note": "the rounded fits equal the exact ones with fl = id (fit_round_id); bm_fit_trend_evades is a finding"
  },
  {
   "property": "C112",
   "status": "proved",
   "theorems": [
    "Verif.Split.walk_init_outcome",
    "Verif.Split.walk_init_units",
    "Verif.Split.walk_units_mismatch",
    "Verif.Split.walk_freq_needed"
   ],
   "note": ""
  },
  {
   "property": "C113",
   "status": "proved",
   "theorems": [
    "Verif.Info.entropy_round",
    "Verif.Info.entropy_round_nonneg",
    "Verif.Info.entropy_round_zero",
    "Verif.Info.entropy_round_id",
    "Verif.Info.mi_entropy_round",
    "Verif.Info.vi_entropy_round",
    "Verif.Info.mi_norm_round",
    "Verif.Info.vi_norm_round",
    "Verif.Info.vi_norm_entropy_round",
    "Verif.Info.kl_round_self",
    "Verif.Info.kl_entropy_round",
    "Verif.Info.npSum_isSum",
    "Verif.Info.npSum_depth",
    "Verif.Info.mi_const_inf",
    "Verif.Info.vi_self_negative",
    "Verif.Info.mi_self_above_one"
   ],
   "note": "mi_const_inf, vi_self_negative and mi_self_above_one are findings; entropy_round_id ties the rounded model to HistR"
  },
  {
   "property": "C114",
   "status": "proved",
   "theorems": [
    "Verif.MatDiv.logDet_portfolios",
    "Verif.MatDiv.logDet_subset",
    "Verif.MatDiv.logDet_volatility",
    "Verif.MatDiv.logDet_close",
    "Verif.MatDiv.logDet_blocks",
    "Verif.MatDiv.logDet_scale",
    "Verif.MatDiv.logDet_uncorrelated",
    "Verif.MatDiv.vonNeuman_lower",
    "Verif.MatDiv.vonNeuman_upper",
    "Verif.MatDiv.vonNeuman_correlations",
    "Verif.MatDiv.vonNeuman_scale",
    "Verif.MatDiv.vonNeuman_rotate",
    "Verif.MatDiv.vonNeuman_blocks",
    "Verif.MatDiv.divergence_no_metric"
   ],
   "note": "exact arithmetic; same assumption on logm as C48; divergence_no_metric is negative"
  },
  {
   "property": "C115",
   "status": "proved",
   "theorems": [
    "Verif.Props.MicroEdgeLaw.edge_limit",
    "Verif.Props.MicroEdgeLaw.edge_fair",
    "Verif.Props.MicroEdgeLaw.edge_inside",
    "Verif.Props.MicroEdgeLaw.edge_spread",
    "Verif.Props.MicroEdgeLaw.edge_extremes",
    "Verif.Props.MicroEdgeLaw.edge_momentum",
    "Verif.Props.MicroEdgeLaw.edge_mirror",
    "Verif.Props.MicroEdgeLaw.exists_wide",
    "Verif.Props.MicroEdgeLaw.edge_straight"
   ],
   "note": "exact arithmetic; edge_extremes, edge_momentum, edge_mirror and edge_straight are negative"
  },
  {
   "property": "C116",
   "status": "proved",
   "theorems": [
    "Verif.Split.windows_meet",
    "Verif.Split.kfold_distance",
    "Verif.Split.kfold_windows_apart",
    "Verif.Split.kfold_forward_windows_iff",
    "Verif.Split.kfold_windows_iff",
    "Verif.Split.kfold_purge_alone",
    "Verif.Split.walk_windows_iff"
   ],
   "note": "kfold_purge_alone is negative: purging alone does not separate targets that look ahead"
  },
  {
   "property": "C117",
   "status": "proved",
   "theorems": [
    "Verif.Clust.recover",
    "Verif.Clust.separated_found",
    "Verif.Clust.single_found",
    "Verif.Clust.ward_value",
    "Verif.Clust.ward_lower",
    "Verif.Clust.ward_upper",
    "Verif.Clust.ward_found",
    "Verif.Clust.ward_found_size",
    "Verif.Clust.six_separated",
    "Verif.Clust.six_groups",
    "Verif.Clust.ward_size_matters"
   ],
   "note": "ward_size_matters is negative: the default method need not find separated groups"
  },
  {
   "property": "C118",
   "status": "proved",
   "theorems": [
    "Verif.Clust.similar_found",
    "Verif.Clust.similar_found_ward",
    "Verif.Clust.correlation_found",
    "Verif.Clust.correlation_found_ward",
    "Verif.Clust.equal_correlation_found",
    "Verif.Clust.hc_of_correlation",
    "Verif.Clust.blocks_found"
   ],
   "note": ""
  },
  {
   "property": "C119",
   "status": "proved",
   "theorems": [
    "Verif.Clust.hc_of_sample",
    "Verif.Clust.corr_limit",
    "Verif.Clust.found_of",
    "Verif.Clust.estimated_found",
    "Verif.Clust.estimated_found_ward",
    "Verif.Clust.sample_found",
    "Verif.Clust.sample_found_ward"
   ],
   "note": ""
  },
  {
   "property": "C12",
   "status": "proved",
   "theorems": [
    "Verif.Split.walk_tests_partition_tail",
    "Verif.Split.walk_gap_tests_overlap"
   ],
   "note": "False with gaps (walk_gap_tests_overlap)."
  },
  {
   "property": "C120",
   "status": "proved",
   "theorems": [
    "Verif.Clust.spearman_estimated",
    "Verif.Clust.rankCorr_comp",
    "Verif.Clust.rankCorr_indep",
    "Verif.Clust.rankCorr_self",
    "Verif.Clust.distance_limit",
    "Verif.Clust.rank_found",
    "Verif.Clust.rank_found_ward",
    "Verif.Stat.glivenko",
    "Verif.Stat.grade_var",
    "Verif.Stat.rank_relRank"
   ],
   "note": ""
  },
  {
   "property": "C121",
   "status": "proved",
   "theorems": [
    "Verif.Split.float_whole",
    "Verif.Split.float_whole_object",
    "Verif.Split.between_leaks",
    "Verif.Split.tests_nonempty",
    "Verif.Split.disjoint_iff",
    "Verif.Split.disjoint_iff_whole",
    "Verif.Split.steps_of_whole",
    "Verif.Split.percentage_leak",
    "Verif.Split.rounding_leak",
    "Verif.Split.gap_leaks"
   ],
   "note": ""
  },
  {
   "property": "C122",
   "status": "proved",
   "theorems": [
    "Verif.Clust.Nested.sil_groups",
    "Verif.Clust.Nested.sil_families",
    "Verif.Clust.Nested.groups_score",
    "Verif.Clust.Nested.families_score",
    "Verif.Clust.Nested.counts",
    "Verif.Clust.Nested.never_groups",
    "Verif.Clust.Nested.mean_prefers",
    "Verif.Clust.Nested.mean_not_tstat",
    "Verif.Clust.Nested.hc_never_groups"
   ],
   "note": ""
  },
  {
   "property": "C123",
   "status": "proved",
   "theorems": [
    "Verif.Cov.denoised_manual",
    "Verif.Cov.denoised_fitted",
    "Verif.Cov.denoised_factor_model",
    "Verif.Cov.denoised_smallest",
    "Verif.Cov.denoised_strict_iff",
    "Verif.Cov.denoised_zero",
    "Verif.Cov.denoised_variance",
    "Verif.Cov.denoise_manual_factor",
    "Verif.Cov.denoise_fitted_factor",
    "Verif.Cov.denoise_manual_variance",
    "Verif.Cov.denoise_pair",
    "Verif.Cov.denoise_pair_vanishes"
   ],
   "note": ""
  },
  {
   "property": "C124",
   "status": "proved",
   "theorems": [
    "Verif.Cov.denoised_unique",
    "Verif.Cov.denoised_tendsto",
    "Verif.Cov.denoised_equal",
    "Verif.Cov.cor_denoise_continuous",
    "Verif.Cov.cov_denoise_continuous",
    "Verif.Cov.cov_denoise_sample",
    "Verif.Cov.cov_denoise_consistent",
    "Verif.Cov.cov_denoise_pair",
    "Verif.Cov.three_assets",
    "Verif.Cov.equal_assets",
    "Verif.Cov.cor_denoise_reorder",
    "Verif.Cov.cor_denoise_signs",
    "Verif.Cov.denoise_jumps"
   ],
   "note": ""
  },
  {
   "property": "C125",
   "status": "proved",
   "theorems": [
    "Verif.Cov.fit_outside",
    "Verif.Cov.fitted_outside",
    "Verif.Cov.fitted_eventually",
    "Verif.Cov.fitted_sample_unchanged",
    "Verif.Cov.fitted_sample_limit",
    "Verif.Cov.noise_all_factors",
    "Verif.Cov.three_noise"
   ],
   "note": "noise_all_factors is a finding: the property a user would expect, that pure noise has no factors in long samples, fails"
  },
  {
   "property": "C126",
   "status": "proved",
   "theorems": [
    "Verif.Clust.goes_on",
    "Verif.Clust.Staged.at_least",
    "Verif.Clust.UniformDraws.typical",
    "Verif.Clust.Staged.miss",
    "Verif.Clust.hc_gap_groups",
    "Verif.Clust.hc_gap_nested",
    "Verif.Clust.identical_never",
    "Verif.Clust.hc_gap_identical",
    "Verif.Clust.hc_gap_identical_error",
    "Verif.Clust.missBound_limit",
    "Verif.Clust.hc_gap_example",
    "Verif.Clust.uniformDraws_exist"
   ],
   "note": "seeded numpy draws are idealised as uniform numbers, independent in pairs for each seed; hc_gap_identical and hc_gap_identical_error are findings: groups of identical points are not found but mostly raise IndexError"
  },
  {
   "property": "C127",
   "status": "proved",
   "theorems": [
    "Verif.Cov.density_le",
    "Verif.Cov.fit_flat",
    "Verif.Cov.fitted_value",
    "Verif.Cov.flat_factors",
    "Verif.Cov.flat_unchanged",
    "Verif.Cov.lam_near_one",
    "Verif.Cov.small_unchanged",
    "Verif.Cov.one_short",
    "Verif.Cov.sample_rank",
    "Verif.Cov.one_short_sample"
   ],
   "note": "small_unchanged and one_short are findings: matrices close to pure noise are taken for n factors, and with n - 1 observations of n assets nothing is denoised"
  },
  {
   "property": "C128",
   "status": "proved",
   "theorems": [
    "Verif.TS.infer_days",
    "Verif.TS.infer_business",
    "Verif.TS.infer_month_ends",
    "Verif.TS.infer_month_starts",
    "Verif.TS.infer_shape",
    "Verif.TS.business_iff",
    "Verif.Sim.fit_stepSize",
    "Verif.Sim.stepSize_cases",
    "Verif.Sim.step_day_iff",
    "Verif.Sim.step_month_iff",
    "Verif.Sim.step_default_iff",
    "Verif.Sim.weekly_raises",
    "Verif.Sim.equal_steps_raise",
    "Verif.Sim.quarterly_raises",
    "Verif.Sim.descending",
    "Verif.Sim.unsorted_default",
    "Verif.Sim.ticks_default",
    "Verif.Sim.gaps_default",
    "Verif.Sim.weekly_gap",
    "Verif.Sim.no_pattern_no_sample",
    "Verif.Sim.fit_step_ratio",
    "Verif.Sim.missingWeek_fit"
   ],
   "note": "pd.infer_freq is transcribed from pandas 2.2 (Model/InferFreq); weekly_raises, equal_steps_raise, unsorted_default, ticks_default, gaps_default, weekly_gap and no_pattern_no_sample are findings"
  },
  {
   "property": "C129",
   "status": "proved",
   "theorems": [
    "Verif.TS.calendar_infer",
    "Verif.TS.calendar_extend",
    "Verif.Sim.labels_of_sample",
    "Verif.Sim.fit_records",
    "Verif.Sim.sample_dates",
    "Verif.Sim.sample_reproduces_dates",
    "Verif.Sim.refit_same_step",
    "Verif.Sim.forecast_returns",
    "Verif.Sim.short_week",
    "Verif.Sim.start_moved"
   ],
   "note": "pd.date_range is transcribed from pandas 2.2 for the codes D, B, ME and MS (Model/DateRange); short_week and start_moved are findings"
  },
  {
   "property": "C13",
   "status": "proved",
   "theorems": [
    "Verif.Split.walk_gapless_run",
    "Verif.Split.walk_gapless_errors",
    "Verif.Split.walk_gapless_yield"
   ],
   "note": ""
  },
  {
   "property": "C130",
   "status": "proved",
   "theorems": [
    "Verif.TS.freq_exact",
    "Verif.TS.daily_missing",
    "Verif.TS.weekly_missing",
    "Verif.TS.freq_holidays",
    "Verif.TS.holidays_business",
    "Verif.TS.ninety_round",
    "Verif.Sim.holidays_fit"
   ],
   "note": "daily_missing and holidays_fit are findings; ninety_round justifies the exact comparison in Model/Timeseries"
  },
  {
   "property": "C131",
   "status": "proved",
   "theorems": [
    "Verif.Sim.chol_product",
    "Verif.Sim.chol_refuses",
    "Verif.Sim.chol_diagonal",
    "Verif.Sim.chol_accepts",
    "Verif.Sim.chol_correlation",
    "Verif.Sim.chol_perfect",
    "Verif.Sim.chol_pair",
    "Verif.Sim.chol_exact_factor",
    "Verif.Sim.chol_exact_total",
    "Verif.Sim.bm_law_computed",
    "Verif.Sim.gbm_law_computed",
    "Verif.Sim.ou_law_computed"
   ],
   "note": "LAPACK's potrf is written out as the entrywise recurrence; overflow, underflow and NaN are left out"
  },
  {
   "property": "C132",
   "status": "proved",
   "theorems": [
    "Verif.Sim.bm_fit_factor",
    "Verif.Sim.gbm_fit_factor",
    "Verif.Sim.bm_fit_proportional"
   ],
   "note": "bm_fit_proportional is a finding"
  },
  {
   "property": "C133",
   "status": "proved",
   "theorems": [
    "Verif.Sim.bm_fit_cor_error",
    "Verif.Sim.gbm_fit_cor_error",
    "Verif.Sim.bm_fit_sure_round",
    "Verif.Sim.gbm_fit_sure_round",
    "Verif.Sim.ortho_fit"
   ],
   "note": ""
  },
  {
   "property": "C134",
   "status": "proved",
   "theorems": [
    "Verif.Sim.ou_params_round",
    "Verif.Sim.ou_factor_back",
    "Verif.Sim.ou_mean_back",
    "Verif.Sim.ou_scale_back",
    "Verif.Sim.ou_fit_round",
    "Verif.Sim.ou_fit_cor_error",
    "Verif.Sim.ou_fit_factor",
    "Verif.Sim.ou_fit_sure_round",
    "Verif.Sim.ouFitR_id",
    "Verif.Sim.ou_slope_pos",
    "Verif.Sim.half_fit",
    "Verif.Sim.float_loss",
    "Verif.Sim.ou_fit_b64",
    "Verif.Sim.slope_digits"
   ],
   "note": "The solver of the regression is an arbitrary function; its own accuracy is not claimed. A last slope of exactly one (division by zero) is excluded; see C97."
  },
  {
   "property": "C135",
   "status": "proved",
   "theorems": [
    "Verif.Sim.bm_nll_round",
    "Verif.Sim.gbm_nll_round",
    "Verif.Sim.ou_nll_round",
    "Verif.Sim.ou_nll_full_round",
    "Verif.Sim.score_round",
    "Verif.Sim.score_order",
    "Verif.Sim.score_choice",
    "Verif.Sim.aic_choice",
    "Verif.Sim.reversion_choice",
    "Verif.Sim.bm_nll_mat_round",
    "Verif.Sim.gbm_nll_mat_round",
    "Verif.Sim.ou_nll_mat_round",
    "Verif.Sim.lik_id",
    "Verif.Sim.ouNllR_id",
    "Verif.Sim.nllMat_id"
   ],
   "note": "One variate; several variates only without correlation. scipy's norm.logpdf is written out with its operations."
  },
  {
   "property": "C14",
   "status": "proved",
   "theorems": [
    "Verif.Split.walk_windows",
    "Verif.Split.walk_gapless_run"
   ],
   "note": ""
  },
  {
   "property": "C15",
   "status": "proved",
   "theorems": [
    "Verif.Split.walk_history_counter",
    "Verif.Split.walk_history_finalized_stays",
    "Verif.Split.walk_second_run_doubles",
    "Verif.Split.walk_empty_run_not_finalized"
   ],
   "note": ""
  },
  {
   "property": "C16",
   "status": "proved",
   "theorems": [
    "Verif.Split.walk_zero_train_window",
    "Verif.Split.walk_zero_test_window_diverges"
   ],
   "note": ""
  },
  {
   "property": "C17",
   "status": "proved",
   "theorems": [
    "Verif.Sim.bm_succeeds_iff",
    "Verif.Sim.bm_increments",
    "Verif.Sim.bm_errors",
    "Verif.Sim.gbm_succeeds_iff",
    "Verif.Sim.gbm_paths"
   ],
   "note": ""
  },
  {
   "property": "C18",
   "status": "proved",
   "theorems": [
    "Verif.Sim.bm_increments",
    "Verif.Sim.gbm_paths",
    "Verif.Sim.ou_inv",
    "Verif.Sim.bm_errors"
   ],
   "note": ""
  },
  {
   "property": "C19",
   "status": "proved",
   "theorems": [
    "Verif.Sim.bm_increments",
    "Verif.Sim.bm_closed_form",
    "Verif.Sim.bm_noise_free"
   ],
   "note": ""
  },
  {
   "property": "C20",
   "status": "proved",
   "theorems": [
    "Verif.Sim.gbm_paths",
    "Verif.Sim.gbm_log_is_bm"
   ],
   "note": ""
  },
  {
   "property": "C21",
   "status": "proved",
   "theorems": [
    "Verif.Sim.ou_recursion",
    "Verif.Sim.ou_noise_free",
    "Verif.Sim.ou_stationary_variance",
    "Verif.Sim.ou_vector_rate_many_paths_fails"
   ],
   "note": ""
  },
  {
   "property": "C22",
   "status": "proved",
   "theorems": [
    "Verif.Sim.bm_fit_drift",
    "Verif.Sim.bm_fit_vol",
    "Verif.Sim.bm_fit_short",
    "Verif.Sim.bm_fit_outcome",
    "Verif.Sim.bm_fit_cor",
    "Verif.Sim.bm_fit_of_sample",
    "Verif.Sim.bm_fit_inverts_noise_free",
    "Verif.Sim.bm_fit_then_sample"
   ],
   "note": "Cholesky is a parameter of the model; outcome characterised for every number of rows."
  },
  {
   "property": "C23",
   "status": "proved",
   "theorems": [
    "Verif.Sim.gbm_fit_drift",
    "Verif.Sim.gbm_fit_of_sample",
    "Verif.Sim.gbm_fit_biased"
   ],
   "note": "Includes the negation: the fit does not return the sampled drift."
  },
  {
   "property": "C24",
   "status": "proved",
   "theorems": [
    "Verif.Sim.ou_fit_noise_free",
    "Verif.Sim.ou_fit_then_sample_fails",
    "Verif.Sim.ou_fit_last_column",
    "Verif.Sim.ou_fit_rate_bound",
    "Verif.Sim.ou_scalar_mean_fails"
   ],
   "note": ""
  },
  {
   "property": "C25",
   "status": "proved",
   "theorems": [
    "Verif.Sim.triangularIndex_iff",
    "Verif.Sim.triangularIndex_error",
    "Verif.Sim.cor_from_upper_tri",
    "Verif.Sim.cor_from_upper_tri_errors"
   ],
   "note": ""
  },
  {
   "property": "C26",
   "status": "proved",
   "theorems": [
    "Verif.Sim.noise_rows",
    "Verif.Sim.noise_moments"
   ],
   "note": ""
  },
  {
   "property": "C27",
   "status": "proved",
   "theorems": [
    "Verif.Sim.column_names",
    "Verif.Sim.column_names_no_paths",
    "Verif.Sim.column_names_entries",
    "Verif.Sim.column_names_nodup",
    "Verif.Sim.default_names_nodup",
    "Verif.Sim.column_names_collision"
   ],
   "note": "Distinctness needs names that print differently; the collision of labels that print alike is a proved witness."
  },
  {
   "property": "C28",
   "status": "proved",
   "theorems": [
    "Verif.Sim.sample_labelled_iff",
    "Verif.Sim.sample_values",
    "Verif.Sim.sample_needs_dates",
    "Verif.Sim.sample_needs_dates_error",
    "Verif.Sim.sample_half_labels",
    "Verif.Sim.history_half_labels",
    "Verif.Sim.series_without_x0_fails",
    "Verif.Sim.dated_sample_returns"
   ],
   "note": "pandas frequency inference and date ranges are parameters."
  },
  {
   "property": "C29",
   "status": "proved",
   "theorems": [
    "Verif.Sim.history_last_data",
    "Verif.Sim.score_keeps_params",
    "Verif.Sim.sample_after_score",
    "Verif.Sim.explicit_args_ignore_history",
    "Verif.Sim.reachable_state",
    "Verif.Sim.failed_fit_mixes",
    "Verif.Sim.failed_fit_blocks_sampling",
    "Verif.Sim.fit_nonpositive_dt",
    "Verif.Sim.list_is_one_row"
   ],
   "note": "Quantified over every history of fit and score calls."
  },
  {
   "property": "C30",
   "status": "proved",
   "theorems": [
    "Verif.Sim.quasi_form",
    "Verif.Sim.quasi_first_row",
    "Verif.Sim.quasi_signal_causal",
    "Verif.Sim.quasi_causal_up_to_scale",
    "Verif.Sim.quasi_scale_looks_ahead",
    "Verif.Sim.quasi_scale",
    "Verif.Sim.quasi_constant_signal_nan",
    "Verif.Sim.quasi_three_steps",
    "Verif.Sim.quasi_fit_fails",
    "Verif.Sim.quasi_scalar_vol_fails",
    "Verif.Sim.quasi_columns"
   ],
   "note": "The signal is causal; the normalisation constant is not (witness). Degenerate signals turn the whole path into nan."
  },
  {
   "property": "C31",
   "status": "proved",
   "theorems": [
    "Verif.TS.freq_codes",
    "Verif.TS.freq_has_duration",
    "Verif.TS.freq_none_short",
    "Verif.TS.freqToDuration_eq_none_iff"
   ],
   "note": ""
  },
  {
   "property": "C32",
   "status": "proved",
   "theorems": [
    "Verif.TS.freq_daily",
    "Verif.TS.freq_business",
    "Verif.TS.doc_business_is_daily",
    "Verif.TS.freq_weekly",
    "Verif.TS.freq_three_points"
   ],
   "note": "Includes a refuted docstring example (two weeks of business days)."
  },
  {
   "property": "C33",
   "status": "proved",
   "theorems": [
    "Verif.TS.boundary_nested",
    "Verif.TS.freq_month_ends",
    "Verif.TS.freq_month_starts",
    "Verif.TS.freq_year_ends",
    "Verif.TS.freq_year_starts",
    "Verif.TS.freq_consecutive_month_ends",
    "Verif.TS.freq_consecutive_month_starts",
    "Verif.TS.freq_consecutive_quarter_ends",
    "Verif.TS.freq_consecutive_quarter_starts",
    "Verif.TS.march_to_june_is_quarterly"
   ],
   "note": ""
  },
  {
   "property": "C34",
   "status": "proved",
   "theorems": [
    "Verif.Cov.cov_round_trip",
    "Verif.Cov.cov_to_cor_valid",
    "Verif.Cov.cov_to_cor_isCor_iff",
    "Verif.Cov.cov_floor_effect",
    "Verif.Cov.cor_round_trip",
    "Verif.Cov.cov_to_cor_range",
    "Verif.Cov.random_cov_valid",
    "Verif.Cov.random_cor_valid"
   ],
   "note": "The floor regularises the variance, not the standard deviation as documented: below 1e-6 the diagonal of the correlation is smaller than one."
  },
  {
   "property": "C35",
   "status": "proved",
   "theorems": [
    "Verif.Cov.eig_to_cor_shape",
    "Verif.Cov.eig_to_cor_inverse",
    "Verif.Cov.cor_to_eig_all",
    "Verif.Cov.cor_to_eig_top",
    "Verif.Cov.cor_to_eig_zero",
    "Verif.Cov.eig_to_cor_not_psd"
   ],
   "note": "Positive semidefiniteness of the rebuilt matrix is not guaranteed for arbitrary vectors; a witness is proved."
  },
  {
   "property": "C36",
   "status": "proved",
   "theorems": [
    "Verif.Cov.flatten_laws",
    "Verif.Cov.flatten_descending",
    "Verif.Cov.flatten_idempotent",
    "Verif.Cov.truncate_laws",
    "Verif.Cov.denoise_trace",
    "Verif.Cov.denoise_trace_lost",
    "Verif.Cov.denoise_order",
    "Verif.Cov.fit_ignores_spectrum"
   ],
   "note": "With fewer time steps than assets the eigenvalue sum is lost and the fit looks at the wrong slice; both proved."
  },
  {
   "property": "C37",
   "status": "proved",
   "theorems": [
    "Verif.Cov.cor_denoise_fitted_valid",
    "Verif.Cov.cor_denoise_manual_valid",
    "Verif.Cov.cor_denoise_all_factors",
    "Verif.Cov.cor_denoise_manual_ok_iff",
    "Verif.Cov.cor_denoise_agree",
    "Verif.Cov.cov_denoise_valid",
    "Verif.Cov.cor_denoise_rejects",
    "Verif.Cov.argsort_exists",
    "Verif.Cov.eigh_exists",
    "Verif.Cov.svd_exists"
   ],
   "note": "For every eigh, argsort and svd meeting their specifications; such functions are proved to exist."
  },
  {
   "property": "C38",
   "status": "proved",
   "theorems": [
    "Verif.Cov.mp_support",
    "Verif.Cov.mp_density_sign",
    "Verif.Cov.mp_density_scale",
    "Verif.Cov.sqrt_integral",
    "Verif.Cov.mp_total_mass",
    "Verif.Cov.mp_pdf_cases",
    "Verif.Cov.mp_pdf_int_truncates",
    "Verif.Cov.mpLoop_argmax",
    "Verif.Cov.mp_fit_argmax",
    "Verif.Cov.mp_fit_ok_iff",
    "Verif.Cov.mp_mean",
    "Verif.Cov.mp_second",
    "Verif.Cov.mp_noise"
   ],
   "note": "Total mass by an explicit antiderivative. Integer arrays truncate the densities (negation proved)."
  },
  {
   "property": "C39",
   "status": "proved",
   "theorems": [
    "Verif.Cov.block_entries",
    "Verif.Cov.blockOf_total",
    "Verif.Cov.block_valid_iff",
    "Verif.Cov.block_valid",
    "Verif.Cov.doc_block_invalid",
    "Verif.Cov.block_fails_iff"
   ],
   "note": "The docstring example is not positive semidefinite (proved)."
  },
  {
   "property": "C40",
   "status": "proved",
   "theorems": [
    "Verif.Dist.dist_fin",
    "Verif.Dist.dist_special",
    "Verif.Dist.dist_range",
    "Verif.Dist.array_ok_iff",
    "Verif.Dist.array_dist",
    "Verif.Dist.array_dist_asymmetric",
    "Verif.Dist.frame_dist",
    "Verif.Dist.corr_to_dist_ok_iff",
    "Verif.Dist.frame_distance_matrix",
    "Verif.Dist.array_distance_matrix",
    "Verif.Dist.distance_matrix_bad_names"
   ],
   "note": "An accepted array may give an asymmetric distance matrix (tolerance in the symmetry test); data frames are neither validated nor get a zero diagonal; arrays with a constant column fail where data frames give nan. DataFrame.corr is a parameter with a recorded specification."
  },
  {
   "property": "C41",
   "status": "proved",
   "theorems": [
    "Verif.Dist.pair_triangle",
    "Verif.Dist.pair_symm",
    "Verif.Dist.pair_zero_iff",
    "Verif.Dist.pair_self",
    "Verif.Dist.pair_distance_cases"
   ],
   "note": "Via unit vectors in Euclidean space; zero distance is characterised as an affine relation between the samples."
  },
  {
   "property": "C42",
   "status": "proved",
   "theorems": [
    "Verif.Dist.dist_monotone",
    "Verif.Dist.dist_compare"
   ],
   "note": ""
  },
  {
   "property": "C43",
   "status": "proved",
   "theorems": [
    "Verif.Info.bin_edges",
    "Verif.Info.entropies_ok_iff",
    "Verif.Info.entropies_laws",
    "Verif.Info.mi_range",
    "Verif.Info.mi_norm_range",
    "Verif.Info.mi_self",
    "Verif.Info.info_symm",
    "Verif.Info.mi_zero_iff",
    "Verif.Info.info_affine"
   ],
   "note": "Exact arithmetic; bins from positions instead of float edges. Samples of floats with nan and infinities."
  },
  {
   "property": "C44",
   "status": "proved",
   "theorems": [
    "Verif.Info.vi_range",
    "Verif.Info.vi_zero_iff",
    "Verif.Info.vi_norm_zero_iff",
    "Verif.Info.vi_triangle",
    "Verif.Info.info_symm",
    "Verif.Info.info_affine",
    "Verif.Info.vi_auto_triangle_fails"
   ],
   "note": "The triangle inequality is proved for a common number of bins and refuted for the default bins=None."
  },
  {
   "property": "C45",
   "status": "proved",
   "theorems": [
    "Verif.Info.kl_eq",
    "Verif.Info.kl_ok_iff",
    "Verif.Info.kl_negative",
    "Verif.Info.kl_nonneg",
    "Verif.Info.kl_affine_zero"
   ],
   "note": "The property is a negation with a witness plus the conditions under which the usual laws hold."
  },
  {
   "property": "C46",
   "status": "proved",
   "theorems": [
    "Verif.Info.pyRound_spec",
    "Verif.Info.uniValue_spec",
    "Verif.Info.bivValue_spec",
    "Verif.Info.uni_bins",
    "Verif.Info.biv_bins",
    "Verif.Info.auto_bins",
    "Verif.Info.auto_info"
   ],
   "note": "Exact arithmetic: a float correlation of a sample and its negative may differ from -1 by rounding."
  },
  {
   "property": "C47",
   "status": "proved",
   "theorems": [
    "Verif.Info.info_matrix_entries",
    "Verif.Info.info_matrix_ok_iff",
    "Verif.Info.info_matrix_method",
    "Verif.Info.vi_matrix_metric",
    "Verif.Info.mi_diagonal_wrong"
   ],
   "note": "Row and column labels of data frames are not modelled."
  },
  {
   "property": "C48",
   "status": "proved",
   "theorems": [
    "Verif.MatDiv.check_iff",
    "Verif.MatDiv.posDef_passes",
    "Verif.MatDiv.passes_posDef",
    "Verif.MatDiv.logDet_cases",
    "Verif.MatDiv.logDet_nonneg",
    "Verif.MatDiv.logDet_invariance",
    "Verif.MatDiv.logDet_negative",
    "Verif.MatDiv.logm_exists",
    "Verif.MatDiv.vonNeuman_cases",
    "Verif.MatDiv.vonNeuman_nonneg",
    "Verif.MatDiv.vonNeuman_broadcast",
    "Verif.MatDiv.vonNeuman_negative"
   ],
   "note": "Exact arithmetic; eigenvalues are the complex roots of the characteristic polynomial; scipy's logm is a parameter that takes logarithms of the eigenvalues of positive definite symmetric matrices (shown to exist)."
  },
  {
   "property": "C49",
   "status": "proved",
   "theorems": [
    "Verif.Props.IndCausal.Causal.agree",
    "Verif.Props.IndCausal.Causal.append",
    "Verif.Props.IndCausal.rolling_indicators_causal",
    "Verif.Props.IndCausal.ewmMean_causal",
    "Verif.Props.IndCausal.ewmStd_causal",
    "Verif.Props.IndCausal.ewmMom_causal",
    "Verif.Props.IndCausal.rollingMom_causal",
    "Verif.Props.IndCausal.rollingMom_looks_ahead",
    "Verif.Props.IndCausal.macd_causal",
    "Verif.Props.IndCausal.macdSignal_causal",
    "Verif.Props.IndCausal.rsi_causal",
    "Verif.Props.IndCausal.ewmRsi_causal",
    "Verif.Props.IndCausal.averageTrueRange_causal",
    "Verif.Props.IndCausal.bands_cut",
    "Verif.Props.IndCausal.bollinger_cut",
    "Verif.Props.IndCausal.ewmBollinger_cut",
    "Verif.Props.IndCausal.keltner_cut",
    "Verif.Props.IndCausal.donchian_cut",
    "Verif.Props.IndCausal.ok_iff"
   ],
   "note": "rolling_mom with a negative window looks ahead (rollingMom_looks_ahead); all other indicators never do."
  },
  {
   "property": "C50",
   "status": "proved",
   "theorems": [
    "Verif.Props.IndRolling.rolling_nan",
    "Verif.Props.IndRolling.mean_spec",
    "Verif.Props.IndRolling.std_spec",
    "Verif.Props.IndRolling.std_window_one",
    "Verif.Props.IndRolling.max_spec",
    "Verif.Props.IndRolling.min_spec",
    "Verif.Props.IndRolling.leading_missing",
    "Verif.Props.IndRolling.rolling_order",
    "Verif.Props.IndRolling.affine"
   ],
   "note": ""
  },
  {
   "property": "C51",
   "status": "proved",
   "theorems": [
    "Verif.Props.IndRsi.rsi_range",
    "Verif.Props.IndRsi.gains_reflect",
    "Verif.Props.IndRsi.rsi_reflect",
    "Verif.Props.IndRsi.rsi_formula",
    "Verif.Props.IndRsi.rsi_rising",
    "Verif.Props.IndRsi.rsi_falling",
    "Verif.Props.IndRsi.rsi_flat",
    "Verif.Props.IndRsi.rsi_gap"
   ],
   "note": "Flat prices give NaN; a missing price hides the move across it (rsi_gap)."
  },
  {
   "property": "C52",
   "status": "proved",
   "theorems": [
    "Verif.Props.IndBands.bands_at",
    "Verif.Props.IndBands.bollinger_ordered",
    "Verif.Props.IndBands.ewmBollinger_ordered",
    "Verif.Props.IndBands.trueRange_spec",
    "Verif.Props.IndBands.trueRange_nonneg",
    "Verif.Props.IndBands.keltner_ordered",
    "Verif.Props.IndBands.keltner_inverted",
    "Verif.Props.IndBands.donchian_spec",
    "Verif.Props.IndBands.percentB_spec",
    "Verif.Props.IndBands.bandwidth_spec",
    "Verif.Props.IndBands.samuelson",
    "Verif.Props.IndBands.bollinger_percentB",
    "Verif.Props.IndBands.trueRange_gaps"
   ],
   "note": "Keltner channels need low <= high (keltner_inverted shows why)."
  },
  {
   "property": "C53",
   "status": "proved",
   "theorems": [
    "Verif.Props.IndEwm.ewm_mean_formula",
    "Verif.Props.IndEwm.ewm_mean_nan",
    "Verif.Props.IndEwm.ewm_mean_range",
    "Verif.Props.IndEwm.ewm_mean_const",
    "Verif.Props.IndEwm.ewm_mean_affine",
    "Verif.Props.IndEwm.correction_pos",
    "Verif.Props.IndEwm.ewm_std_formula",
    "Verif.Props.IndEwm.macd_const",
    "Verif.Props.IndEwm.macdSignal_const",
    "Verif.Props.IndEwm.wmean_mono_decay",
    "Verif.Props.IndEwm.macd_trend",
    "Verif.Props.IndEwm.macdSignal_is_not_signal_line",
    "Verif.Props.IndEwm.ewmMom_missing",
    "Verif.Props.IndEwm.rollingMom_spec",
    "Verif.Props.IndEwm.macd_formula"
   ],
   "note": "macd_signal returns MACD minus its signal line, not the signal line (macdSignal_is_not_signal_line)."
  },
  {
   "property": "C54",
   "status": "proved",
   "theorems": [
    "Verif.Props.IndDispatch.dispatch_reject",
    "Verif.Props.IndDispatch.dispatch_series",
    "Verif.Props.IndDispatch.dispatch_arrays",
    "Verif.Props.IndDispatch.dispatch_kind",
    "Verif.Props.IndDispatch.dispatch_same_values"
   ],
   "note": ""
  },
  {
   "property": "C55",
   "status": "proved",
   "theorems": [
    "Verif.Props.MicroVol.closeClose_nonneg",
    "Verif.Props.MicroVol.closeClose_spec",
    "Verif.Props.MicroVol.closeClose_leading",
    "Verif.Props.MicroVol.highLow_nonneg",
    "Verif.Props.MicroVol.highLow_spec",
    "Verif.Props.MicroVol.garmanKlass_nonneg",
    "Verif.Props.MicroVol.garmanKlass_spec",
    "Verif.Props.MicroVol.garmanKlass_negative",
    "Verif.Props.MicroVol.rogersSatchell_nonneg",
    "Verif.Props.MicroVol.rogersSatchell_spec",
    "Verif.Props.MicroVol.rsTerm_straight",
    "Verif.Props.MicroVol.yzCoeff_range",
    "Verif.Props.MicroVol.yangZhang_window_one",
    "Verif.Props.MicroVol.negative_window",
    "Verif.Props.MicroVol.yangZhang_nonneg",
    "Verif.Props.MicroVol.yangZhang_spec",
    "Verif.Props.MicroVol.yangZhang_flat_bars",
    "Verif.Props.MicroVol.volatility_scale",
    "Verif.Props.MicroVol.rogersSatchell_negative"
   ],
   "note": "garmanKlass_negative and yangZhang_flat_bars record deviations from the textbook estimators."
  },
  {
   "property": "C56",
   "status": "proved",
   "theorems": [
    "Verif.Props.MicroSpread.beta_cases",
    "Verif.Props.MicroSpread.gamma_cases",
    "Verif.Props.MicroSpread.beta_spec",
    "Verif.Props.MicroSpread.gamma_spec",
    "Verif.Props.MicroSpread.clamp_dead",
    "Verif.Props.MicroSpread.corwinSchultz_range",
    "Verif.Props.MicroSpread.corwinSchultz_spec",
    "Verif.Props.MicroSpread.corwinSchultz_constant",
    "Verif.Props.MicroSpread.beckerParkinson_nonneg",
    "Verif.Props.MicroSpread.beckerParkinson_spec",
    "Verif.Props.MicroSpread.beckerParkinson_constant",
    "Verif.Props.MicroSpread.spread_scale",
    "Verif.Props.MicroSpread.link_strictMono",
    "Verif.Props.MicroSpread.link_lt"
   ],
   "note": "corwinSchultz_constant and clamp_dead record the wrong sign in _get_alpha."
  },
  {
   "property": "C57",
   "status": "proved",
   "theorems": [
    "Verif.Props.MicroTrade.vpin_range",
    "Verif.Props.MicroTrade.vpin_spec",
    "Verif.Props.MicroTrade.vpin_zero_volume",
    "Verif.Props.MicroTrade.cdf_exists",
    "Verif.Props.MicroTrade.buy_range",
    "Verif.Props.MicroTrade.buy_direction",
    "Verif.Props.MicroTrade.buy_first",
    "Verif.Props.MicroTrade.vpin_of_estimate"
   ],
   "note": "scipy's t.cdf is a parameter with the properties in the structure Cdf."
  },
  {
   "property": "C58",
   "status": "proved",
   "theorems": [
    "Verif.Props.MicroTrade.kyle_nonneg",
    "Verif.Props.MicroTrade.kyle_spec",
    "Verif.Props.MicroTrade.kyle_no_change",
    "Verif.Props.MicroTrade.hasbrouck_nonneg",
    "Verif.Props.MicroTrade.hasbrouck_spec",
    "Verif.Props.MicroTrade.amihud_nonneg",
    "Verif.Props.MicroTrade.amihud_spec",
    "Verif.Props.MicroTrade.pctChange_gap",
    "Verif.Props.MicroTrade.kyle_units",
    "Verif.Props.MicroTrade.amihud_units",
    "Verif.Props.MicroTrade.hasbrouck_units"
   ],
   "note": ""
  },
  {
   "property": "C59",
   "status": "proved",
   "theorems": [
    "Verif.Props.MicroRoll.rollingCov_spec",
    "Verif.Props.MicroRoll.rollingCov_nan",
    "Verif.Props.MicroRoll.rollingCov_cases",
    "Verif.Props.MicroRoll.roll_nonneg",
    "Verif.Props.MicroRoll.roll_spec",
    "Verif.Props.MicroRoll.roll_window_one",
    "Verif.Props.MicroRoll.roll_leading",
    "Verif.Props.MicroRoll.roll_scale",
    "Verif.Props.MicroRoll.impact_spec",
    "Verif.Props.MicroRoll.roll_positive_autocov",
    "Verif.Props.MicroEdge.edge_sign",
    "Verif.Props.MicroEdge.edge_scale",
    "Verif.Props.MicroEdge.edgeBars_real",
    "Verif.Props.MicroEdge.edge_example",
    "Verif.Props.MicroEdge.s2_between",
    "Verif.Props.MicroEdge.edge_spec",
    "Verif.Props.MicroEdge.edge_windows",
    "Verif.Props.MicroEdge.edge_window_two",
    "Verif.Props.MicroEdge.edge_constant"
   ],
   "note": "roll_positive_autocov: a positive autocovariance also gives a positive \"spread\"."
  },
  {
   "property": "C60",
   "status": "proved",
   "theorems": [
    "Verif.Props.Cusum.max_spec",
    "Verif.Props.Cusum.cusum_first",
    "Verif.Props.Cusum.crit_range",
    "Verif.Props.Cusum.cusum_spec",
    "Verif.Props.Cusum.dev_ne_zero_iff",
    "Verif.Props.Cusum.cusum_constant",
    "Verif.Props.Cusum.dep_bound",
    "Verif.Props.Cusum.never_rejects_early",
    "Verif.Props.Cusum.first_rise_rejects",
    "Verif.Props.Cusum.cusum_neg_iff",
    "Verif.Props.Cusum.cusum_scale",
    "Verif.Props.Cusum.cusum_power",
    "Verif.Props.Cusum.cusum_causal"
   ],
   "note": "The code uses sqrt(t-n) and the root of the critical value; the docstring has sqrt(t-n-1) and no root."
  },
  {
   "property": "C61",
   "status": "proved",
   "theorems": [
    "Verif.Props.ClustSelect.gap_result_iff",
    "Verif.Props.ClustSelect.gap_ne_index",
    "Verif.Props.ClustSelect.gap_index_iff",
    "Verif.Props.ClustSelect.gap_small_range",
    "Verif.Props.ClustSelect.gap_error",
    "Verif.Props.ClustSelect.gap_total",
    "Verif.Props.ClustSelect.gap_result_few",
    "Verif.Props.ClustSelect.gap_three_points",
    "Verif.Props.ClustSelect.gap_select_scale",
    "Verif.Props.ClustSelect.argmax_picks",
    "Verif.Props.ClustSelect.picks_unique",
    "Verif.Props.ClustSelect.silh_result_iff",
    "Verif.Props.ClustSelect.silh_empty",
    "Verif.Props.ClustSelect.metric_unknown",
    "Verif.Props.ClustSelect.silh_few",
    "Verif.Props.ClustSilh.select_equidistant",
    "Verif.Props.ClustSilh.select_first_nan"
   ],
   "note": "gap can be selected although no k beats the reference; see findings. The specification of the cut is proved for scipy's cut_tree and five of the seven linkage methods in C91; it fails for centroid and median."
  },
  {
   "property": "C62",
   "status": "proved",
   "theorems": [
    "Verif.Props.ClustGap.gap_eq",
    "Verif.Props.ClustGap.gap_formula",
    "Verif.Props.ClustGap.gap_infinite",
    "Verif.Props.ClustGap.gap_singletons",
    "Verif.Props.ClustGap.gap_same_partition",
    "Verif.Props.ClustGap.gap_relabel",
    "Verif.Props.ClustGap.gap_scale",
    "Verif.Props.ClustGap.gap_upper",
    "Verif.Props.ClustGap.gap_equidistant",
    "Verif.Props.ClustGap.gap_seed_overlap",
    "Verif.Props.ClustGap.gap_none_seed",
    "Verif.Props.ClustGap.npMax_fin_iff",
    "Verif.Props.ClustGap.gap_ok_iff",
    "Verif.Props.ClustGap.gap_errors",
    "Verif.Props.ClustSilh.samples_spec",
    "Verif.Props.ClustSilh.samples_error",
    "Verif.Props.ClustSilh.sil_unique",
    "Verif.Props.ClustSilh.sil_range",
    "Verif.Props.ClustSilh.sil_pos_iff",
    "Verif.Props.ClustSilh.silh_ok_iff",
    "Verif.Props.ClustSilh.silh_value",
    "Verif.Props.ClustSilh.silh_constant",
    "Verif.Props.ClustSilh.silh_finite",
    "Verif.Props.ClustSilh.silh_same_partition",
    "Verif.Props.ClustSilh.silh_relabel",
    "Verif.Props.ClustSilh.silh_scale",
    "Verif.Props.ClustSilh.sil_perm",
    "Verif.Props.ClustSilh.silh_perm",
    "Verif.Props.ClustSilh.sil_equidistant",
    "Verif.Props.ClustSilh.silh_equidistant"
   ],
   "note": ""
  },
  {
   "property": "C63",
   "status": "proved",
   "theorems": [
    "Verif.Props.UtilLog.configure_ok_iff",
    "Verif.Props.UtilLog.configure_handlers",
    "Verif.Props.UtilLog.configure_twice",
    "Verif.Props.UtilLog.configure_bad_level",
    "Verif.Props.UtilLog.configure_bad_file",
    "Verif.Props.UtilLog.message_once",
    "Verif.Props.UtilLog.notset_silent",
    "Verif.Props.UtilLog.root_duplicates",
    "Verif.Props.UtilLog.import_resets",
    "Verif.Props.UtilLog.unconfigured"
   ],
   "note": "Limits proved: NOTSET is silent below the root level, an import resets the level, root handlers duplicate messages."
  },
  {
   "property": "C64",
   "status": "proved",
   "theorems": [
    "Verif.Props.UtilValidate.check1_spec",
    "Verif.Props.UtilValidate.check2_spec",
    "Verif.Props.UtilValidate.wrap_spec",
    "Verif.Props.UtilValidate.decorators",
    "Verif.Props.UtilValidate.position_or_name",
    "Verif.Props.UtilValidate.wrap_comm",
    "Verif.Props.UtilValidate.unknown_name",
    "Verif.Props.UtilValidate.no_rows_accepted",
    "Verif.Props.UtilValidate.toNumpy_spec",
    "Verif.Props.UtilValidate.array_accepts",
    "Verif.Props.UtilValidate.array_rejects",
    "Verif.Props.UtilValidate.frame_accepts",
    "Verif.Props.UtilValidate.frame_wildcard_rejects",
    "Verif.Props.UtilValidate.frame_dtype_ignored",
    "Verif.Props.UtilValidate.series_accepts"
   ],
   "note": ""
  },
  {
   "property": "C65",
   "status": "proved",
   "theorems": [
    "Verif.Sim.bm_causal",
    "Verif.Sim.gbm_causal",
    "Verif.Sim.ou_causal"
   ],
   "note": ""
  },
  {
   "property": "C66",
   "status": "proved",
   "theorems": [
    "Verif.Sim.bm_fit_equivariant",
    "Verif.Sim.bm_shift",
    "Verif.Sim.gbm_fit_scale_invariant",
    "Verif.Sim.gbm_scale"
   ],
   "note": ""
  },
  {
   "property": "C67",
   "status": "proved",
   "theorems": [
    "Verif.Sim.bm_fit_drift_is_ml",
    "Verif.Sim.bm_fit_vol_not_ml",
    "Verif.Sim.gbm_nll_minimiser",
    "Verif.Sim.gbm_nll_prefers_other_drift"
   ],
   "note": ""
  },
  {
   "property": "C68",
   "status": "proved",
   "theorems": [
    "Verif.Sim.score_of_list",
    "Verif.Sim.score_formulas",
    "Verif.Sim.aic_standard_iff",
    "Verif.Sim.aic_ranking_wrong",
    "Verif.Sim.bic_ranking_wrong"
   ],
   "note": "aic and bic multiply the total negative log-likelihood by the number of samples once more."
  },
  {
   "property": "C69",
   "status": "proved",
   "theorems": [
    "Verif.Props.MicroCausal.CausalN.agree",
    "Verif.Props.MicroCausal.closeClose_causal",
    "Verif.Props.MicroCausal.highLow_causal",
    "Verif.Props.MicroCausal.garmanKlass_causal",
    "Verif.Props.MicroCausal.rogersSatchell_causal",
    "Verif.Props.MicroCausal.yangZhang_causal",
    "Verif.Props.MicroCausal.beckerParkinson_causal",
    "Verif.Props.MicroCausal.corwinSchultz_causal",
    "Verif.Props.MicroCausal.rollMeasure_causal",
    "Verif.Props.MicroCausal.rollImpact_causal",
    "Verif.Props.MicroCausal.edge_causal",
    "Verif.Props.MicroCausal.vpin_causal",
    "Verif.Props.MicroCausal.buyVolume_causal",
    "Verif.Props.MicroCausal.kyle_causal",
    "Verif.Props.MicroCausal.amihud_causal",
    "Verif.Props.MicroCausal.hasbrouck_causal",
    "Verif.Props.MicroCausal.ok_iff"
   ],
   "note": ""
  },
  {
   "property": "C70",
   "status": "proved",
   "theorems": [
    "Verif.Props.ClustHC.linkage_frozen",
    "Verif.Props.ClustHC.linkage_origin",
    "Verif.Props.ClustHC.reads_pure",
    "Verif.Props.ClustHC.stale_after_assignment",
    "Verif.Props.ClustHC.linkage_failed",
    "Verif.Props.ClustHC.linkage_ok_iff"
   ],
   "note": "Stale after assignment (stale_after_assignment)."
  },
  {
   "property": "C71",
   "status": "proved",
   "theorems": [
    "Verif.Props.ClustHC.init_dist",
    "Verif.Props.ClustHC.init_missing",
    "Verif.Props.ClustHC.init_precedence",
    "Verif.Props.ClustHC.input_iff",
    "Verif.Props.ClustHC.frame_linkage",
    "Verif.Props.ClustHC.array_init_error",
    "Verif.Props.ClustHC.accepted_but_unusable",
    "Verif.Props.ClustHC.var_info_linkage"
   ],
   "note": "Some matrices are accepted by the constructor although every use raises (accepted_but_unusable)."
  },
  {
   "property": "C72",
   "status": "proved",
   "theorems": [
    "Verif.Props.UtilData.root_relative",
    "Verif.Props.UtilData.root_absolute",
    "Verif.Props.UtilData.root_join",
    "Verif.Props.UtilData.root_dotdot",
    "Verif.Props.UtilData.load_outcome",
    "Verif.Props.UtilData.load_logger",
    "Verif.Props.UtilData.treasury_rename",
    "Verif.Props.UtilData.treasury_header"
   ],
   "note": "The index of the treasury data keeps the name Date; an absolute path replaces the root."
  },
  {
   "property": "C73",
   "status": "proved",
   "theorems": [
    "Verif.Sim.eighAll_exists",
    "Verif.Sim.mvnNll_eq",
    "Verif.Sim.bm_nll_density",
    "Verif.Sim.nll_identity",
    "Verif.Sim.bm_nll_columns",
    "Verif.Sim.bm_nll_additive",
    "Verif.Sim.gbm_nll_additive",
    "Verif.Sim.ou_nll_additive",
    "Verif.Sim.nll_permute",
    "Verif.Sim.nll_outcome"
   ],
   "note": "eigh is a parameter with specification EighSpec; additivity includes the raising and NaN cases."
  },
  {
   "property": "C74",
   "status": "proved",
   "theorems": [
    "Verif.Sim.nll_repeats_column",
    "Verif.Sim.nll_common_vol_raises",
    "Verif.Sim.ou_std_pos",
    "Verif.Sim.ou_nll_one",
    "Verif.Sim.ou_fit_then_nll_raises",
    "Verif.Sim.num_parameters_constant",
    "Verif.Sim.ou_nll_columns"
   ],
   "note": "Mostly negations of what a user would expect."
  },
  {
   "property": "C75",
   "status": "proved",
   "theorems": [
    "Verif.Sim.obsNll_min",
    "Verif.Sim.obsNll_scaled",
    "Verif.Sim.bm_fit_ml",
    "Verif.Sim.lstsq_min",
    "Verif.Sim.ou_fit_ml"
   ],
   "note": "A user who compares models by nll or AIC after a fit sees a value that is never the minimum."
  },
  {
   "property": "C76",
   "status": "proved",
   "theorems": [
    "Verif.Sim.logDensity_sample",
    "Verif.Sim.nll_of_shocks",
    "Verif.Sim.bm_nll_of_sample",
    "Verif.Sim.bm_nll_of_sample_none",
    "Verif.Sim.gbm_nll_of_sample",
    "Verif.Sim.ou_nll_of_sample",
    "Verif.Sim.ou_nll_of_sample_none"
   ],
   "note": "The GBM theorem states the defect of the code."
  },
  {
   "property": "C77",
   "status": "proved",
   "theorems": [
    "Verif.Sim.bm_law",
    "Verif.Sim.bm_law_of_init",
    "Verif.Sim.bm_marginal",
    "Verif.Sim.bm_paths_independent",
    "Verif.Sim.bm_increments_independent",
    "Verif.Sim.bm_forecast",
    "Verif.Sim.bm_refine",
    "Verif.Sim.bm_is_brownian"
   ],
   "note": "The diagonal of cor is not checked by the code and enters the variance."
  },
  {
   "property": "C78",
   "status": "proved",
   "theorems": [
    "Verif.Sim.gbm_log_law",
    "Verif.Sim.gbm_pos",
    "Verif.Sim.gbm_mean_any",
    "Verif.Sim.gbm_mean",
    "Verif.Sim.gbm_cov",
    "Verif.Sim.gbm_forecast",
    "Verif.Sim.gbm_refine",
    "Verif.Sim.gbm_paths_independent",
    "Verif.Sim.gbm_growth_independent"
   ],
   "note": "Prices drift at the stated rate in expectation only for a unit diagonal."
  },
  {
   "property": "C79",
   "status": "proved",
   "theorems": [
    "Verif.Sim.ou_law",
    "Verif.Sim.ou_exact",
    "Verif.Sim.ou_marginal",
    "Verif.Sim.ou_paths_independent",
    "Verif.Sim.ou_refine",
    "Verif.Sim.ou_cross_too_large",
    "Verif.Sim.ou_not_refine",
    "Verif.Sim.ou_forecast",
    "Verif.Sim.ou_succeeds_iff"
   ],
   "note": "The theorem for different rates states the defect of the code."
  },
  {
   "property": "C80",
   "status": "proved",
   "theorems": [
    "Verif.Sim.bm_fit_consistent",
    "Verif.Sim.bm_round_trip",
    "Verif.Sim.bm_fit_unbiased",
    "Verif.Sim.gbm_fit_inconsistent",
    "Verif.Sim.gbm_fit_expected",
    "Verif.Sim.nonsingular_of_init",
    "Verif.Sim.chol_exists"
   ],
   "note": "The geometric theorems state the defect of the code."
  },
  {
   "property": "C81",
   "status": "proved",
   "theorems": [
    "Verif.Sim.ou_fit_limits",
    "Verif.Sim.ou_fit_consistent",
    "Verif.Sim.ou_round_trip",
    "Verif.Sim.ou_fit_inconsistent",
    "Verif.Sim.ou_fit_clamped",
    "Verif.Sim.ouScale_anti",
    "Verif.Sim.shocks_noise"
   ],
   "note": "ou_fit_inconsistent and ou_fit_clamped state defects of the code."
  },
  {
   "property": "C82",
   "status": "proved",
   "theorems": [
    "Verif.Props.CusumLaw.deviation_limit",
    "Verif.Props.CusumLaw.trend_detected",
    "Verif.Props.CusumLaw.false_alarms",
    "Verif.Props.CusumLaw.departure_law",
    "Verif.Props.CusumLaw.departure_not_normal",
    "Verif.Props.CusumLaw.departure_asymptotic",
    "Verif.Props.CusumLaw.gbm_trend_detected",
    "Verif.Props.CusumLaw.gbm_false_alarms"
   ],
   "note": "false_alarms, gbm_false_alarms and departure_not_normal contradict the documentation (5% size, standard normal departures)."
  },
  {
   "property": "C83",
   "status": "proved",
   "theorems": [
    "Verif.Props.MicroRollLaw.change_cov",
    "Verif.Props.MicroRollLaw.roll_limit",
    "Verif.Props.MicroRollLaw.roll_spread",
    "Verif.Props.MicroRollLaw.roll_directions",
    "Verif.Props.MicroRollLaw.roll_informed",
    "Verif.Props.MicroRollLaw.roll_sign",
    "Verif.Props.MicroRollLaw.exists_roll"
   ],
   "note": "roll_directions, roll_informed and roll_sign state where the measure differs from the spread."
  },
  {
   "property": "C84",
   "status": "proved",
   "theorems": [
    "Verif.Props.MicroVolLaw.closeClose_limit",
    "Verif.Props.MicroVolLaw.closeClose_normal",
    "Verif.Props.MicroVolLaw.highLow_limit",
    "Verif.Props.MicroVolLaw.garmanKlass_limit",
    "Verif.Props.MicroVolLaw.rogersSatchell_limit",
    "Verif.Props.MicroVolLaw.yz_weight",
    "Verif.Props.MicroVolLaw.yangZhang_limit",
    "Verif.Props.MicroVolLaw.yangZhang_excess",
    "Verif.Props.MicroVolLaw.exists_bars"
   ],
   "note": "closeClose_normal and yangZhang_excess are deviations from the published estimators."
  },
  {
   "property": "C85",
   "status": "proved",
   "theorems": [
    "Verif.Props.MicroSpreadLaw.link_lipschitz",
    "Verif.Props.MicroSpreadLaw.constant_of_consistent",
    "Verif.Props.MicroSpreadLaw.corwin_limit",
    "Verif.Props.MicroSpreadLaw.becker_limit",
    "Verif.Props.MicroSpreadLaw.corwin_inconsistent",
    "Verif.Props.MicroSpreadLaw.becker_inconsistent",
    "Verif.Props.MicroSpreadLaw.no_limit"
   ],
   "note": "Negative result: the estimators average beta but not gamma over the window."
  },
  {
   "property": "C86",
   "status": "proved",
   "theorems": [
    "Verif.Props.MicroTradeLaw.kyle_limit",
    "Verif.Props.MicroTradeLaw.kyle_exact",
    "Verif.Props.MicroTradeLaw.kyle_bias",
    "Verif.Props.MicroTradeLaw.exists_flow",
    "Verif.Props.MicroTradeLaw.amihud_limit",
    "Verif.Props.MicroTradeLaw.hasbrouck_limit",
    "Verif.Props.MicroTradeLaw.exists_value",
    "Verif.Props.MicroTradeLaw.vpin_limit",
    "Verif.Props.MicroTradeLaw.map_cdf",
    "Verif.Props.MicroTradeLaw.cdf_spread",
    "Verif.Props.MicroTradeLaw.vpin_estimate_limit",
    "Verif.Props.MicroTradeLaw.vpin_matched"
   ],
   "note": "kyle_bias and vpin_matched are negative results."
  },
  {
   "property": "C87",
   "status": "proved",
   "theorems": [
    "Verif.Cov.random_cov_mean",
    "Verif.Cov.random_cov_trace",
    "Verif.Cov.random_cov_trace_near",
    "Verif.Cov.random_cov_strict",
    "Verif.Cov.cov_to_cor_strict",
    "Verif.Cov.random_cor_strict",
    "Verif.Cov.random_cor_small_diag",
    "Verif.Cov.random_draws_exist"
   ],
   "note": "random_cor_small_diag is a negative result."
  },
  {
   "property": "C88",
   "status": "proved",
   "theorems": [
    "Verif.Sim.draws_independent",
    "Verif.Sim.notCollinear_sure",
    "Verif.Sim.collinear_of_few",
    "Verif.Sim.not_constant_sure",
    "Verif.Sim.bm_fit_sure",
    "Verif.Sim.gbm_fit_sure",
    "Verif.Sim.bm_fit_resample",
    "Verif.Sim.chol_exists_shape",
    "Verif.Sim.thousand_paths",
    "Verif.Sim.gbm_fit_resample"
   ],
   "note": "thousand_paths is the negative side: too many paths for the number of steps."
  },
  {
   "property": "C89",
   "status": "proved",
   "theorems": [
    "Verif.Sim.bm_sampleX_agrees",
    "Verif.Sim.gbm_sampleX_agrees",
    "Verif.Sim.ou_sampleX_agrees",
    "Verif.Sim.bmX_succeeds_iff",
    "Verif.Sim.gbmX_succeeds_iff",
    "Verif.Sim.bmX_steps",
    "Verif.Sim.gbmX_steps",
    "Verif.Sim.ouX_steps",
    "Verif.Sim.bm_special_start",
    "Verif.Sim.bm_special_start_others",
    "Verif.Sim.gbm_special_start",
    "Verif.Sim.bm_nan_parameter",
    "Verif.Sim.gbm_nan_parameter",
    "Verif.Sim.bm_columns_local",
    "Verif.Sim.ou_zero_rate",
    "Verif.Sim.ou_special_start",
    "Verif.Sim.gbm_columns_local",
    "Verif.Sim.ou_special_start_others"
   ],
   "note": "gbm_special_start, ou_zero_rate are negative results."
  },
  {
   "property": "C90",
   "status": "proved",
   "theorems": [
    "Verif.Sim.bm_fitX_agrees",
    "Verif.Sim.gbm_fitX_agrees",
    "Verif.Sim.ou_fitX_agrees",
    "Verif.Sim.bm_fit_missing_one",
    "Verif.Sim.gbm_fit_one",
    "Verif.Sim.bm_fit_missing_many",
    "Verif.Sim.gbm_fit_bad_many",
    "Verif.Sim.gbm_fit_negate",
    "Verif.Sim.bm_fit_missing_sample",
    "Verif.Sim.gbm_fit_bad_sample",
    "Verif.Sim.ou_fit_unit_slope",
    "Verif.Sim.ou_fit_linear",
    "Verif.Sim.ou_fit_unit_sample"
   ],
   "note": "Assumes that np.linalg.cholesky raises LinAlgError on a matrix with nan, as LAPACK does. In exact arithmetic: rounding can move a slope of one."
  },
  {
   "property": "C91",
   "status": "proved",
   "theorems": [
    "Verif.Clust.cut_total",
    "Verif.Clust.cut_clusters",
    "Verif.Clust.cutSpec_of_sorted",
    "Verif.Clust.cut_nested",
    "Verif.Clust.linkage_exists",
    "Verif.Clust.linkage_valid",
    "Verif.Clust.linkage_sorted",
    "Verif.Clust.linkage_cut",
    "Verif.Clust.linkageSpec_exists",
    "Verif.Clust.hc_linkage",
    "Verif.Clust.hc_clusters",
    "Verif.Clust.centroid_one_cluster",
    "Verif.Clust.centroid_silhouette_error",
    "Verif.Clust.hc_silhouette_default",
    "Verif.Clust.order_matters"
   ],
   "note": "scipy's cut_tree is written out in the model; linkage is the relation 'each row merges two closest clusters, with the distance formula of the method', shown to have solutions. Exact arithmetic; distances not negative."
  },
  {
   "property": "C92",
   "status": "proved",
   "theorems": [
    "Verif.Clust.cut_height",
    "Verif.Clust.cut_state",
    "Verif.Clust.height_exists",
    "Verif.Clust.single_clusters",
    "Verif.Clust.complete_clusters",
    "Verif.Clust.average_clusters",
    "Verif.Clust.ward_clusters",
    "Verif.Clust.ward_total",
    "Verif.Clust.wss_euclid",
    "Verif.Clust.wss_union",
    "Verif.Clust.ward_means",
    "Verif.Clust.ward_correlation",
    "Verif.Clust.angular_points",
    "Verif.Clust.abs_angular_no_points",
    "Verif.Clust.hc_correlation",
    "Verif.Clust.triRho_case"
   ],
   "note": "linkage as in C91. wss is half the mean of the squared distances; wss_euclid: for points it is the usual sum of squares. height_exists: with different row distances every k has such a c. hc_correlation is about HC(corr=array, linkage_method=\"ward\"). abs_angular_no_points: a positive semidefinite correlation matrix whose absolute angular distances belong to no points."
  },
  {
   "property": "C93",
   "status": "proved",
   "theorems": [
    "Verif.Sim.bm_fit_exact",
    "Verif.Sim.gbm_fit_exact",
    "Verif.Sim.fit_law",
    "Verif.Sim.shock_sum_sq",
    "Verif.Sim.shock_stats_indep",
    "Verif.Sim.StdNormal.chiSquare",
    "Verif.Sim.five_years"
   ],
   "note": "The volatilities are scaled by the diagonal of the correlation matrix, which is 1 for a correlation matrix. five_years is the case of one path of 1260 days."
  },
  {
   "property": "C94",
   "status": "proved",
   "theorems": [
    "Verif.LSer.highLow_respects",
    "Verif.LSer.garmanKlass_respects",
    "Verif.LSer.rogersSatchell_respects",
    "Verif.LSer.yangZhang_respects",
    "Verif.LSer.beckerParkinson_respects",
    "Verif.LSer.corwinSchultz_respects",
    "Verif.LSer.rollImpact_respects",
    "Verif.LSer.vpin_respects",
    "Verif.LSer.kyle_respects",
    "Verif.LSer.amihud_respects",
    "Verif.LSer.hasbrouck_respects",
    "Verif.LSer.bands_respect",
    "Verif.LSer.atr_respects",
    "Verif.LSer.atr_other",
    "Verif.LSer.keltner_respects",
    "Verif.LSer.edge_same",
    "Verif.LSer.edge_relabel",
    "Verif.LSer.edge_label_sorted",
    "Verif.LSer.edge_label_causal",
    "Verif.LSer.vpin_example"
   ],
   "note": "The statement is the structure Respects (Spec/Labelled.lean). atr_other covers labels that are not dates, where times need not increase (atr_lookahead in C95). vpin_example is a concrete pair of series with different labels."
  },
  {
   "property": "C95",
   "status": "proved",
   "theorems": [
    "Verif.LSer.highLow_extends",
    "Verif.LSer.rogersSatchell_extends",
    "Verif.LSer.vpin_extends",
    "Verif.LSer.edge_extends",
    "Verif.LSer.kyle_blanks",
    "Verif.LSer.amihud_blanks",
    "Verif.LSer.hasbrouck_blanks",
    "Verif.LSer.vpin_blanks",
    "Verif.LSer.rogersSatchell_blanks",
    "Verif.LSer.kyle_bridges",
    "Verif.LSer.kyle_not_extends",
    "Verif.LSer.buyVolume_position",
    "Verif.LSer.buyVolume_error",
    "Verif.LSer.buyVolume_lookahead",
    "Verif.LSer.edge_repeated",
    "Verif.LSer.edge_repeated_value",
    "Verif.LSer.edge_lookahead",
    "Verif.LSer.atr_lookahead"
   ],
   "note": "Findings: buyVolume_lookahead, edge_lookahead, atr_lookahead, kyle_not_extends are concrete cases; the first three use later data."
  },
  {
   "property": "C96",
   "status": "proved",
   "theorems": [
    "Verif.Info.mi_consistent",
    "Verif.Info.mi_norm_consistent",
    "Verif.Info.vi_consistent",
    "Verif.Info.vi_norm_consistent",
    "Verif.Info.mi_limit_zero_iff",
    "Verif.Info.info_independent",
    "Verif.Info.kl_consistent",
    "Verif.Info.square_independent",
    "Verif.Info.mi_blind",
    "Verif.Info.mi_skewed",
    "Verif.Info.vi_skewed",
    "Verif.Info.lognormal_skewed"
   ],
   "note": "Bins given as a number; automatic bins are not covered. `mi_blind`: a variable and its image under the doubling map have mutual information zero in the limit with two bins."
  },
  {
   "property": "C97",
   "status": "proved",
   "theorems": [
    "Verif.Sim.bm_nllX_agrees",
    "Verif.Sim.gbm_nllX_agrees",
    "Verif.Sim.ou_nllX_agrees",
    "Verif.Sim.gaussX_value",
    "Verif.Sim.bm_nll_special",
    "Verif.Sim.gbm_nll_special",
    "Verif.Sim.ou_nll_special",
    "Verif.Sim.bm_nll_never_raises",
    "Verif.Sim.gbm_nll_never_raises",
    "Verif.Sim.ou_nll_never_raises",
    "Verif.Sim.gaussX_nan_scale",
    "Verif.Sim.ou_nll_zero_rate",
    "Verif.Sim.score_values",
    "Verif.Sim.missing_no_ranking",
    "Verif.Sim.ou_fit_full_agrees",
    "Verif.Sim.ou_fit_missing_many",
    "Verif.Sim.ou_fit_missing_one",
    "Verif.Sim.lstsq_exists"
   ],
   "note": "What LAPACK's least-squares routine does with special values is assumed (Lstsq): LinAlgError or nan. The agreement for OU calibration needs two rows and a last slope other than one (a slope of one is C90)."
  },
  {
   "property": "C98",
   "status": "proved",
   "theorems": [
    "Verif.Cov.covToCorX_agrees",
    "Verif.Cov.mpFitX_agrees",
    "Verif.Cov.corDenoiseX_agrees",
    "Verif.Cov.covDenoiseX_agrees",
    "Verif.Cov.cor_range",
    "Verif.Cov.cor_missing_iff",
    "Verif.Cov.cor_infinite",
    "Verif.Cov.cov_denoise_infinite",
    "Verif.Cov.cor_zero_reg",
    "Verif.Cov.cor_zero_reg_psd",
    "Verif.Cov.mp_fit_missing",
    "Verif.Cov.cor_denoise_missing",
    "Verif.Cov.cov_denoise_missing",
    "Verif.Cov.cor_denoise_lower",
    "Verif.Cov.cov_denoise_lower",
    "Verif.Cov.eighX_exists",
    "Verif.Cov.svdX_exists"
   ],
   "note": "The float model is tied to the real one by the _agrees theorems; eigh and svd on special values may raise or return nan."
  },
  {
   "property": "C99",
   "status": "proved",
   "theorems": [
    "Verif.Round.b64_rounding",
    "Verif.Round.id_rounding",
    "Verif.Round.round_id_agrees",
    "Verif.Round.dist_round_range",
    "Verif.Round.dist_round_antitone",
    "Verif.Round.dist_round_exact",
    "Verif.Round.dist_round_error",
    "Verif.Round.dist_round_error_squared",
    "Verif.Round.dist_round_zero_iff",
    "Verif.Round.cor_round_range",
    "Verif.Round.cor_round_error",
    "Verif.Round.cor_round_diag",
    "Verif.Round.cor_round_diag_iff",
    "Verif.Round.cor_round_two",
    "Verif.Round.cor_round_rejected",
    "Verif.Round.cov_round_trip"
   ],
   "note": "b64_rounding shows that round-to-nearest-even with 53 bits meets the specification Rounding; round_id_agrees that the functions without rounding are those of C34 and C40. cor_round_two and cor_round_rejected are the finding: a correlation matrix produced by the package is rejected by its distance functions."
  }
 ]
}