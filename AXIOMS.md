# Axioms per theorem

Output of `#print axioms` for every theorem in MANIFEST.json (generated by tools/mkaxioms.py).
`propext`, `Classical.choice` and `Quot.sound` are the axioms of Lean itself; nothing else occurs.

| Property | Theorem | Axioms |
|---|---|---|
| C01 | `GoMetrics.C01_counter_sum` | propext, Classical.choice, Quot.sound |
| C01 | `GoMetrics.C01_counter_exact` | propext, Classical.choice, Quot.sound |
| C01 | `GoMetrics.C01_counter_order_independent` | propext, Classical.choice, Quot.sound |
| C02 | `GoMetrics.C02_total` | propext, Classical.choice, Quot.sound |
| C02 | `GoMetrics.C02_no_total` | propext, Classical.choice, Quot.sound |
| C03 | `GoMetrics.C03_query_monotone_clock` | propext, Classical.choice, Quot.sound |
| C04 | `GoMetrics.C04_query_arbitrary_clock` | propext, Classical.choice, Quot.sound |
| C05 | `GoMetrics.C05_ring` | propext, Classical.choice, Quot.sound |
| C05 | `GoMetrics.C05_at_most_N` | propext, Classical.choice, Quot.sound |
| C06 | `GoMetrics.C06_start_time_filters` | propext, Quot.sound |
| C06 | `GoMetrics.C06_getBucketCounts` | propext |
| C06 | `GoMetrics.C06_no_placeholders` | propext, Classical.choice, Quot.sound |
| C06 | `GoMetrics.C06_placeholder_visible_refuted` | propext |
| C07 | `GoMetrics.C07_keys_aligned` | propext, Classical.choice, Quot.sound |
| C07 | `GoMetrics.C07_interval_contains` | propext, Classical.choice, Quot.sound |
| C08 | `GoMetrics.C08_subsecond_panics` | propext, Quot.sound |
| C08 | `GoMetrics.C08_no_panic` | propext, Quot.sound |
| C09 | `GoMetrics.C09_last_update` | propext, Classical.choice, Quot.sound |
| C09 | `GoMetrics.C09_milliseconds_refuted` | propext |
| C10 | `GoMetrics.C10_total` | propext, Classical.choice, Quot.sound |
| C10 | `GoMetrics.C10_buckets` | propext, Classical.choice, Quot.sound |
| C10 | `GoMetrics.C10_reported_exact` | propext, Classical.choice, Quot.sound |
| C10 | `GoMetrics.C10_sequential_link` | propext |
| C11 | `GoMetrics.C11_latest_monotone` | propext, Classical.choice, Quot.sound |
| C11 | `GoMetrics.C11_one_bucket_per_interval` | propext, Classical.choice, Quot.sound |
| C12 | `GoMetrics.C12_visible_refuted` | propext |
| C12 | `GoMetrics.C12_no_race` | propext, Classical.choice, Quot.sound |
| C12 | `GoMetrics.C12_lost_only_by_race` | propext, Classical.choice, Quot.sound |
| C13 | `GoMetrics.C13_never_earlier_refuted` | propext |
| C13 | `GoMetrics.C13_credited_to_a_reading` | propext, Classical.choice, Quot.sound |
| C13 | `GoMetrics.C13_lower_bound` | propext, Classical.choice, Quot.sound |
| C13 | `GoMetrics.C13_earlier_only_by_race` | propext, Classical.choice, Quot.sound |
| C14 | `GoMetrics.C14_exact` | propext, Classical.choice, Quot.sound |
| C15 | `GoMetrics.C15_count_with_carry` | propext, Classical.choice, Quot.sound |
| C15 | `GoMetrics.C15_rt_modulo` | propext, Classical.choice, Quot.sound |
| C15 | `GoMetrics.C15_combined` | propext, Classical.choice, Quot.sound |
| C15 | `GoMetrics.C15_without_start_time` | propext, Classical.choice, Quot.sound |
| C15 | `GoMetrics.C15_negative_iff` | propext, Classical.choice, Quot.sound |
| C16 | `GoMetrics.C16_limit` | propext, Classical.choice, Quot.sound |
| C16 | `GoMetrics.C16_admitted_stay` | propext, Classical.choice, Quot.sound |
| C16 | `GoMetrics.C16_reported` | propext, Classical.choice, Quot.sound |
| C16 | `GoMetrics.C16_ignored` | propext, Classical.choice, Quot.sound |
| C17 | `GoMetrics.C17_isolated` | propext, Classical.choice, Quot.sound |
| C17 | `GoMetrics.C17_getters` | propext, Classical.choice, Quot.sound |
| C18 | `GoMetrics.C18_synchronised_refuted` | propext, Classical.choice, Quot.sound |
| C18 | `GoMetrics.C18_writers_exclusive` | propext, Classical.choice, Quot.sound |
| C18 | `GoMetrics.C18_insert_only_new` | propext, Classical.choice, Quot.sound |
| C18 | `GoMetrics.C18_stable` | propext, Classical.choice, Quot.sound |
| C19 | `GoMetrics.C19_closed_form` | propext, Classical.choice, Quot.sound |
| C20 | `GoMetrics.C20_alphas_in_range` | propext, Classical.choice, Quot.sound |
| C20 | `GoMetrics.C20_in_range` | propext, Classical.choice, Quot.sound |
| C20 | `GoMetrics.C20_in_range_binary64` | propext, Classical.choice, Quot.sound |
| C21 | `GoMetrics.C21_idle_decays` | propext, Classical.choice, Quot.sound |
| C21 | `GoMetrics.C21_idle_exact` | propext, Classical.choice, Quot.sound |
| C22 | `GoMetrics.C22_conservation` | propext, Classical.choice, Quot.sound |
| C22 | `GoMetrics.C22_exactly_once` | propext, Classical.choice, Quot.sound |
| C22 | `GoMetrics.C22_serialisable` | propext, Classical.choice, Quot.sound |
| C22 | `GoMetrics.C22_conservation_any_load` | propext, Classical.choice, Quot.sound |
| C22 | `GoMetrics.C22_exactly_once_any_load` | propext, Classical.choice, Quot.sound |
| C22 | `GoMetrics.C22_serialisable_any_load` | propext, Classical.choice, Quot.sound |
| C22 | `GoMetrics.C22_any_load_covers` | propext, Classical.choice, Quot.sound |
| C23 | `GoMetrics.C23_count` | propext, Classical.choice, Quot.sound |
| C23 | `GoMetrics.C23_success` | propext, Classical.choice, Quot.sound |
| C23 | `GoMetrics.C23_success_at_most` | propext, Classical.choice, Quot.sound |
| C24 | `GoMetrics.C24_error_codes` | propext, Classical.choice, Quot.sound |
| C24 | `GoMetrics.C24_addons` | propext, Classical.choice, Quot.sound |
| C25 | `GoMetrics.C25_never_panics_refuted` | propext, Classical.choice, Quot.sound |
| C25 | `GoMetrics.C25_panics_iff` | propext, Classical.choice, Quot.sound |
| C25 | `GoMetrics.C25_panics_iff_update` | propext, Classical.choice, Quot.sound |
| C26 | `GoMetrics.C26_exact` | propext, Classical.choice, Quot.sound |
| C26 | `GoMetrics.C26_counts_positive` | propext, Classical.choice, Quot.sound |
| C26 | `GoMetrics.C26_zero_then_never_finite` | propext, Classical.choice, Quot.sound |
| C26 | `GoMetrics.C26_second_representable` | propext, Classical.choice, Quot.sound |
| C26 | `GoMetrics.C26_finite_refuted` | propext, Classical.choice, Quot.sound |
| C27 | `GoMetrics.C27_formula` | propext, Classical.choice, Quot.sound |
| C27 | `GoMetrics.C27_mean_rate_exact` | propext, Classical.choice, Quot.sound |
| C27 | `GoMetrics.C27_mean_rate_refuted` | propext, Classical.choice, Quot.sound |
| C28 | `GoMetrics.C28_silent` | propext, Classical.choice, Quot.sound |
| C29 | `GoMetrics.C29_ticks_are_decays` | propext, Classical.choice, Quot.sound |
| C29 | `GoMetrics.C29_schedule_5s` | propext, Classical.choice, Quot.sound |
| C29 | `GoMetrics.C29_not_too_many` | propext, Classical.choice, Quot.sound |
| C29 | `GoMetrics.C29_sixty_seconds_refuted` | propext, Classical.choice, Quot.sound |
| C29 | `GoMetrics.C29_one_second_refuted` | propext, Classical.choice, Quot.sound |
| C30 | `GoMetrics.C30_conservation` | propext, Classical.choice, Quot.sound |
| C30 | `GoMetrics.C30_exactly_once` | propext, Classical.choice, Quot.sound |
| C30 | `GoMetrics.C30_one_winner` | propext, Classical.choice, Quot.sound |
| C30 | `GoMetrics.C30_schedule` | propext, Classical.choice, Quot.sound |
| C30 | `GoMetrics.C30_one_winner_refuted` | propext |
| C30 | `GoMetrics.C30_fed` | propext, Classical.choice, Quot.sound |
| C30 | `GoMetrics.C30_alone` | propext, Classical.choice, Quot.sound |
| C31 | `GoMetrics.C31_instant_counts` | propext, Classical.choice, Quot.sound |
| C31 | `GoMetrics.C31_total` | propext, Classical.choice, Quot.sound |
| C31 | `GoMetrics.C31_follows` | propext, Classical.choice, Quot.sound |
| C32 | `GoMetrics.C32_same_metric` | propext, Classical.choice, Quot.sound |
| C32 | `GoMetrics.C32_entries_stay` | propext, Classical.choice, Quot.sound |
| C33 | `GoMetrics.C33_distinct` | propext, Classical.choice, Quot.sound |
| C34 | `GoMetrics.C34_limit` | propext, Classical.choice, Quot.sound |
| C34 | `GoMetrics.C34_real_count` | propext, Classical.choice, Quot.sound |
| C35 | `GoMetrics.C35_overshoot` | propext, Classical.choice, Quot.sound |
| C35 | `GoMetrics.C35_limit_refuted` | propext |
| C35 | `GoMetrics.C35_overshoot_tight` | propext, Quot.sound |
| C36 | `GoMetrics.C36_size` | propext, Classical.choice, Quot.sound |
| C36 | `GoMetrics.C36_bounded_refuted` | propext |
| C36 | `GoMetrics.C36_keys_concurrent` | propext, Classical.choice, Quot.sound |
| C37 | `GoMetrics.C37_panics_iff` | propext, Classical.choice, Quot.sound |
| C37 | `GoMetrics.C37_never_panics_refuted` | propext |
| C37 | `GoMetrics.C37_concurrent` | propext, Classical.choice, Quot.sound |
| C38 | `GoMetrics.C38_contents` | propext, Classical.choice, Quot.sound |
| C38 | `GoMetrics.C38_partition` | propext, Classical.choice, Quot.sound |
| C38 | `GoMetrics.C38_last_update` | propext, Quot.sound |
| C38 | `GoMetrics.C38_last_update_concurrent` | propext, Quot.sound |
| C39 | `GoMetrics.C39_same_string` | propext, Classical.choice, Quot.sound |
| C39 | `GoMetrics.C39_value` | propext, Classical.choice, Quot.sound |
| C40 | `GoMetrics.C40_equal` | propext |
| C40 | `GoMetrics.C40_equal_refuted` | none |
| C40 | `GoMetrics.C40_differs_iff` | propext |
| C40 | `GoMetrics.C40_orders_iff` | propext, Classical.choice, Quot.sound |
| C41 | `GoMetrics.C41_injective` | propext |
| C41 | `GoMetrics.C41_injective_refuted` | none |
| C42 | `GoMetrics.C42_one_registry_per_group` | propext, Classical.choice, Quot.sound |
| C42 | `GoMetrics.C42_isolated` | propext, Classical.choice, Quot.sound |
| C43 | `GoMetrics.C43_disabled` | propext, Quot.sound |
| C43 | `GoMetrics.C43_reenabled` | propext, Classical.choice, Quot.sound |
| C43 | `GoMetrics.C43_disabled_concurrent` | propext, Classical.choice, Quot.sound |
| C44 | `GoMetrics.C44_bucket_counter` | none |
| C44 | `GoMetrics.C44_compass` | propext, Quot.sound |
| C44 | `GoMetrics.C44_fast_compass` | propext |
| C44 | `GoMetrics.C44_manager` | none |
| C45 | `GoMetrics.C45_counts` | propext, Quot.sound |
| C45 | `GoMetrics.C45_intervals` | propext, Classical.choice, Quot.sound |
| C45 | `GoMetrics.C45_lists` | propext, Classical.choice, Quot.sound |
| C45 | `GoMetrics.C45_level_interval_refuted` | none |
| C45 | `GoMetrics.C45_global_interval_refuted` | none |
| C45 | `GoMetrics.C45_reservoir_type_refuted` | none |
| C46 | `GoMetrics.C46_constants` | none |
| C46 | `GoMetrics.C46_constants_refuted` | propext, Quot.sound |
| C47 | `GoMetrics.C47_wellformed` | propext, Classical.choice, Quot.sound |
| C47 | `GoMetrics.C47_no_panic` | propext, Classical.choice, Quot.sound |
| C47 | `GoMetrics.C47_error_limit_refuted` | none |
| C47 | `GoMetrics.C47_reservoir` | none |
| C48 | `GoMetrics.C48_size` | propext, Classical.choice, Quot.sound |
| C48 | `GoMetrics.C48_no_panic` | propext, Classical.choice, Quot.sound |
| C49 | `GoMetrics.C49_contents` | propext, Classical.choice, Quot.sound |
| C49 | `GoMetrics.C49_one_slot` | propext, Classical.choice, Quot.sound |
| C50 | `GoMetrics.C50_full` | propext, Classical.choice, Quot.sound |
| C50 | `GoMetrics.C50_padded` | propext, Classical.choice, Quot.sound |
| C50 | `GoMetrics.C50_sample_refuted` | propext |
| C51 | `GoMetrics.C51_range` | propext, Classical.choice, Quot.sound |
| C51 | `GoMetrics.C51_uniform` | propext, Classical.choice, Quot.sound |
| C51 | `GoMetrics.C51_half` | propext, Classical.choice, Quot.sound |
| C51 | `GoMetrics.C51_first` | propext |
| C52 | `GoMetrics.C52_fair` | propext, Classical.choice, Quot.sound |
| C52 | `GoMetrics.C52_every_subset` | propext, Classical.choice, Quot.sound |
| C52 | `GoMetrics.C52_words` | propext, Classical.choice, Quot.sound |
| C52 | `GoMetrics.C52_words_return` | propext, Classical.choice, Quot.sound |
| C53 | `GoMetrics.C53_immutable` | propext, Classical.choice, Quot.sound |
| C53 | `GoMetrics.C53_reservoir_untouched` | propext, Classical.choice, Quot.sound |
| C53 | `GoMetrics.C53_snapshot_is` | propext, Classical.choice, Quot.sound |
| C54 | `GoMetrics.C54_error_iff` | propext, Classical.choice, Quot.sound |
| C54 | `GoMetrics.C54_no_panic` | propext, Classical.choice, Quot.sound |
| C54 | `GoMetrics.C54_empty` | propext, Classical.choice, Quot.sound |
| C54 | `GoMetrics.C54_bounds_are` | propext, Classical.choice, Quot.sound |
| C54 | `GoMetrics.C54_range` | propext, Classical.choice, Quot.sound |
| C54 | `GoMetrics.C54_range_exact` | propext, Classical.choice, Quot.sound |
| C54 | `GoMetrics.C54_range_large_refuted` | propext, Classical.choice, Quot.sound |
| C54 | `GoMetrics.C54_range_refuted` | propext, Classical.choice, Quot.sound |
| C54 | `GoMetrics.C54_interpolation` | propext, Classical.choice, Quot.sound |
| C54 | `GoMetrics.C54_zero` | propext, Classical.choice, Quot.sound |
| C54 | `GoMetrics.C54_one` | propext, Classical.choice, Quot.sound |
| C55 | `GoMetrics.C55_monotone` | propext, Classical.choice, Quot.sound |
| C55 | `GoMetrics.C55_monotone_exact` | propext, Classical.choice, Quot.sound |
| C55 | `GoMetrics.C55_percentiles` | propext, Classical.choice, Quot.sound |
| C56 | `GoMetrics.C56_values` | propext, Classical.choice, Quot.sound |
| C56 | `GoMetrics.C56_min_max` | propext, Classical.choice, Quot.sound |
| C56 | `GoMetrics.C56_mean` | propext, Classical.choice, Quot.sound |
| C56 | `GoMetrics.C56_mean_exact` | propext, Classical.choice, Quot.sound |
| C56 | `GoMetrics.C56_mean_refuted` | propext, Classical.choice, Quot.sound |
| C56 | `GoMetrics.C56_variance_nonneg` | propext, Classical.choice, Quot.sound |
| C56 | `GoMetrics.C56_variance_exact` | propext, Classical.choice, Quot.sound |
| C56 | `GoMetrics.C56_no_panic` | propext, Classical.choice, Quot.sound |
| C57 | `GoMetrics.C57_values` | propext, Classical.choice, Quot.sound |
| C57 | `GoMetrics.C57_weights` | propext, Classical.choice, Quot.sound |
| C57 | `GoMetrics.C57_quantiles` | propext, Classical.choice, Quot.sound |
| C57 | `GoMetrics.C57_quantiles_sorted` | propext, Classical.choice, Quot.sound |
| C58 | `GoMetrics.C58_error_iff` | propext, Quot.sound |
| C58 | `GoMetrics.C58_no_panic` | propext, Quot.sound |
| C58 | `GoMetrics.C58_sampled` | propext, Classical.choice, Quot.sound |
| C58 | `GoMetrics.C58_zero` | propext, Classical.choice, Quot.sound |
| C59 | `GoMetrics.C59_monotone` | propext, Classical.choice, Quot.sound |
| C59 | `GoMetrics.C59_percentiles` | propext, Classical.choice, Quot.sound |
| C60 | `GoMetrics.C60_between` | propext, Classical.choice, Quot.sound |
| C60 | `GoMetrics.C60_boundary` | propext, Classical.choice, Quot.sound |
| C60 | `GoMetrics.C60_lower_half_wrong` | propext, Classical.choice, Quot.sound |
| C60 | `GoMetrics.C60_definition_refuted` | propext, Classical.choice, Quot.sound |
| C61 | `GoMetrics.C61_mean` | propext, Classical.choice, Quot.sound |
| C61 | `GoMetrics.C61_variance` | propext, Classical.choice, Quot.sound |
| C61 | `GoMetrics.C61_errors` | propext, Classical.choice, Quot.sound |
| C62 | `GoMetrics.C62_scale` | propext, Classical.choice, Quot.sound |
| C63 | `GoMetrics.EDR.C63_capacity` | propext, Classical.choice, Quot.sound |
| C63 | `GoMetrics.EDR.C63_size_exact` | propext, Classical.choice, Quot.sound |
| C63 | `GoMetrics.EDR.C63_forward_clock` | propext, Classical.choice, Quot.sound |
| C63 | `GoMetrics.EDRConc.C63_conc_capacity` | propext, Classical.choice, Quot.sound |
| C63 | `GoMetrics.EDRConc.C63_size_race_refuted` | propext, Classical.choice, Quot.sound |
| C64 | `GoMetrics.EDR.C64_top` | propext, Classical.choice, Quot.sound |
| C64 | `GoMetrics.EDR.C64_one_update` | propext, Classical.choice, Quot.sound |
| C65 | `GoMetrics.EDR.C65_recorded` | propext, Classical.choice, Quot.sound |
| C65 | `GoMetrics.EDR.C65_since_reset` | propext, Classical.choice, Quot.sound |
| C65 | `GoMetrics.EDR.C65_reset` | propext, Classical.choice, Quot.sound |
| C65 | `GoMetrics.EDRConc.C65_conc_recorded` | propext, Classical.choice, Quot.sound |
| C66 | `GoMetrics.EDR.C66_rescale` | propext, Classical.choice, Quot.sound |
| C66 | `GoMetrics.EDR.C66_backward_refuted` | propext, Classical.choice, Quot.sound |
| C67 | `GoMetrics.EDR.C67_no_panic` | propext, Classical.choice, Quot.sound |
| C67 | `GoMetrics.EDR.C67_capacity_zero` | propext, Classical.choice, Quot.sound |
| C67 | `GoMetrics.EDRConc.C67_conc_no_panic` | propext, Classical.choice, Quot.sound |
| C67 | `GoMetrics.EDR.C67_capacity_zero_always` | propext, Classical.choice, Quot.sound |
| C68 | `GoMetrics.EDR.C68_one_hour` | propext, Classical.choice, Quot.sound |
| C68 | `GoMetrics.EDR.C68_deadline` | propext, Classical.choice, Quot.sound |
| C68 | `GoMetrics.EDRConc.C68_conc_due` | propext, Classical.choice, Quot.sound |
| C68 | `GoMetrics.EDRConc.C68_once_refuted` | propext, Classical.choice, Quot.sound |
| C69 | `GoMetrics.EDRConc.C69_refuted` | propext, Classical.choice, Quot.sound |
| C69 | `GoMetrics.EDRConc.C69_no_rescale` | propext, Classical.choice, Quot.sound |
| C69 | `GoMetrics.EDRConc.C69_exact` | propext, Classical.choice, Quot.sound |
| C69 | `GoMetrics.EDRConc.C69_unraced` | propext, Classical.choice, Quot.sound |
| C69 | `GoMetrics.EDRConc.C69_slip` | propext, Classical.choice, Quot.sound |
| C70 | `GoMetrics.C70_possible` | propext, Classical.choice, Quot.sound |
| C70 | `GoMetrics.C70_one_interval` | propext, Classical.choice, Quot.sound |
| C70 | `GoMetrics.C70_mixed_refuted` | propext, Classical.choice, Quot.sound |
| C70 | `GoMetrics.C70_first_second_refuted` | propext, Classical.choice, Quot.sound |
| C70 | `GoMetrics.C70_straddle_refuted` | propext, Classical.choice, Quot.sound |
| C71 | `GoMetrics.C71_contract` | propext, Classical.choice, Quot.sound |
| C71 | `GoMetrics.C71_not_available` | propext, Classical.choice, Quot.sound |
| C71 | `GoMetrics.C71_mean_exact` | propext, Classical.choice, Quot.sound |
| C72 | `GoMetrics.ManualClock.C72_sum` | propext, Classical.choice, Quot.sound |
| C72 | `GoMetrics.ManualClock.C72_interleaving` | propext, Classical.choice, Quot.sound |
| C72 | `GoMetrics.ManualClock.C72_monotone` | propext, Classical.choice, Quot.sound |
| C73 | `GoMetrics.C73_rounded` | propext, Classical.choice, Quot.sound |
| C73 | `GoMetrics.C73_exact` | propext, Classical.choice, Quot.sound |
| C73 | `GoMetrics.C73_accepts` | propext, Classical.choice, Quot.sound |
| C73 | `GoMetrics.C73_rejects_refuted` | propext, Classical.choice, Quot.sound |
| C73 | `GoMetrics.C73_symmetric` | propext, Classical.choice, Quot.sound |
| C73 | `GoMetrics.C73_nan` | propext, Classical.choice, Quot.sound |
| C74 | `GoMetrics.C74_whole_seconds_exact` | propext, Classical.choice, Quot.sound |
| C74 | `GoMetrics.C74_below_48_days_exact` | propext, Classical.choice, Quot.sound |
| C74 | `GoMetrics.C74_every_interval_refuted` | propext, Classical.choice, Quot.sound |
| C75 | `GoMetrics.EDR.C75_statistics` | propext, Classical.choice, Quot.sound |
| C76 | `GoMetrics.C76_isolation` | propext, Classical.choice, Quot.sound |
| C76 | `GoMetrics.C76_durations` | propext, Classical.choice, Quot.sound |
| C77 | `GoMetrics.C77_panics_iff` | propext, Classical.choice, Quot.sound |
| C77 | `GoMetrics.C77_counts` | propext, Classical.choice, Quot.sound |
| C77 | `GoMetrics.C77_type` | propext, Classical.choice, Quot.sound |
| C77 | `GoMetrics.C77_snapshot` | propext, Classical.choice, Quot.sound |
| C78 | `GoMetrics.C78_user_clock` | propext, Classical.choice, Quot.sound |
| C78 | `GoMetrics.C78_monotonic_refuted` | none |
| C79 | `GoMetrics.C79_linearizable` | propext, Classical.choice, Quot.sound |
| C79 | `GoMetrics.C79_size` | propext, Classical.choice, Quot.sound |
| C79 | `GoMetrics.C79_no_panic` | propext, Classical.choice, Quot.sound |
| C80 | `GoMetrics.C80_linearizable` | propext, Classical.choice, Quot.sound |
| C80 | `GoMetrics.C80_no_lost_record` | propext, Classical.choice, Quot.sound |
| C80 | `GoMetrics.C80_limit` | propext, Classical.choice, Quot.sound |
| C80 | `GoMetrics.C80_no_panic` | propext, Classical.choice, Quot.sound |
| C81 | `GoMetrics.C81_sound` | propext, Classical.choice, Quot.sound |
| C81 | `GoMetrics.C81_complete` | propext, Classical.choice, Quot.sound |
| C81 | `GoMetrics.C81_complete_refuted` | propext |
| C82 | `GoMetrics.C82_whole_records` | propext, Classical.choice, Quot.sound |
| C83 | `GoMetrics.C83_counts` | propext, Classical.choice, Quot.sound |
| C83 | `GoMetrics.C83_panics_iff` | propext, Classical.choice, Quot.sound |
| C83 | `GoMetrics.C83_quiescent` | propext, Classical.choice, Quot.sound |
| C83 | `GoMetrics.C83_limit` | propext, Classical.choice, Quot.sound |
| C83 | `GoMetrics.C83_room` | propext, Classical.choice, Quot.sound |
| C83 | `GoMetrics.C83_bucket_counters` | propext, Classical.choice, Quot.sound |
| C83 | `GoMetrics.C83_kept` | propext, Classical.choice, Quot.sound |
| C83 | `GoMetrics.C83_progress` | propext, Classical.choice, Quot.sound |
| C84 | `GoMetrics.C84_object` | propext, Classical.choice, Quot.sound |
| C84 | `GoMetrics.C84_compass_count` | propext, Classical.choice, Quot.sound |
| C84 | `GoMetrics.C84_compass` | propext, Classical.choice, Quot.sound |
| C84 | `GoMetrics.C84_fast` | propext, Classical.choice, Quot.sound |
| C84 | `GoMetrics.C84_uses_do_not_matter` | propext, Classical.choice, Quot.sound |
| C85 | `GoMetrics.C85_fast_compass` | propext, Classical.choice, Quot.sound |
| C85 | `GoMetrics.C85_fast_compass_unused` | propext |
| C85 | `GoMetrics.C85_compass` | propext, Classical.choice, Quot.sound |
| C86 | `GoMetrics.C86_bucket_anytime` | propext, Classical.choice, Quot.sound |
| C86 | `GoMetrics.C86_bucket_quiescent` | propext, Classical.choice, Quot.sound |
| C86 | `GoMetrics.C86_anytime` | propext, Classical.choice, Quot.sound |
| C86 | `GoMetrics.C86_quiescent` | propext, Classical.choice, Quot.sound |
| C86 | `GoMetrics.C86_uniform` | propext, Classical.choice, Quot.sound |
| C86 | `GoMetrics.C86_uniform_no_panic` | propext, Classical.choice, Quot.sound |
| C86 | `GoMetrics.C86_decaying` | propext, Classical.choice, Quot.sound |
| C86 | `GoMetrics.C86_decaying_kept` | propext, Classical.choice, Quot.sound |
| C87 | `GoMetrics.C87_bucket_counter` | propext, Classical.choice, Quot.sound |
| C87 | `GoMetrics.C87_registry` | propext, Classical.choice, Quot.sound |
| C87 | `GoMetrics.C87_decaying` | propext, Classical.choice, Quot.sound |
| C87 | `GoMetrics.C87_ewma` | propext, Classical.choice, Quot.sound |
| C87 | `GoMetrics.C87_hash_key` | propext, Classical.choice, Quot.sound |
| C87 | `GoMetrics.C87_uniform` | propext, Classical.choice, Quot.sound |
| C87 | `GoMetrics.C87_fast_compass` | propext, Classical.choice, Quot.sound |
| C87 | `GoMetrics.C87_query` | propext, Classical.choice, Quot.sound |
| C87 | `GoMetrics.C87_tick_wait_free_refuted` | propext, Classical.choice, Quot.sound |
| C87 | `GoMetrics.C87_compass_wait_free_refuted` | propext, Classical.choice, Quot.sound |
| C87 | `GoMetrics.C87_compass_bucket` | propext, Classical.choice, Quot.sound |
| C87 | `GoMetrics.C87_compass` | propext, Classical.choice, Quot.sound |
| C87 | `GoMetrics.C87_compass_uniform` | propext, Classical.choice, Quot.sound |
| C87 | `GoMetrics.C87_compass_decaying` | propext, Classical.choice, Quot.sound |
| C88 | `GoMetrics.C88_honest` | propext, Classical.choice, Quot.sound |
| C88 | `GoMetrics.C88_honest_labels` | propext, Classical.choice, Quot.sound |
| C88 | `GoMetrics.C88_uniform` | propext, Classical.choice, Quot.sound |
| C88 | `GoMetrics.C88_fast_compass_record` | propext, Classical.choice, Quot.sound |
| C88 | `GoMetrics.C88_fast_compass_get_refuted` | propext, Classical.choice, Quot.sound |
| C88 | `GoMetrics.C88_hash_key` | propext, Classical.choice, Quot.sound |
| C88 | `GoMetrics.C88_hash_key_assign_refuted` | propext, Quot.sound |
| C88 | `GoMetrics.C88_ewma` | propext, Classical.choice, Quot.sound |
| C88 | `GoMetrics.C88_ewma_tick_refuted` | propext, Classical.choice, Quot.sound |
| C88 | `GoMetrics.C88_get_rate_refuted` | propext, Classical.choice, Quot.sound |
| C88 | `GoMetrics.C88_bucket_counter` | propext, Quot.sound |
| C88 | `GoMetrics.C88_bucket_counter_refuted` | propext |
| C88 | `GoMetrics.C88_bucket_getters_refuted` | propext |
| C88 | `GoMetrics.C88_query_honest` | propext |
| C88 | `GoMetrics.C88_query` | propext, Quot.sound |
| C88 | `GoMetrics.C88_query_refuted` | propext, Quot.sound |
| C88 | `GoMetrics.C88_tick` | propext, Classical.choice, Quot.sound |
| C88 | `GoMetrics.C88_labels` | propext, Classical.choice, Quot.sound |
| C88 | `GoMetrics.C88_labels_refuted` | propext, Classical.choice, Quot.sound |
| C88 | `GoMetrics.C88_get_labels_refuted` | propext, Classical.choice, Quot.sound |
| C88 | `GoMetrics.C88_decaying` | propext, Classical.choice, Quot.sound |
| C88 | `GoMetrics.C88_decaying_refuted` | propext, Classical.choice, Quot.sound |
| C88 | `GoMetrics.C88_decaying_count` | propext, Classical.choice, Quot.sound |
| C88 | `GoMetrics.C88_registry` | propext, Quot.sound |
| C88 | `GoMetrics.C88_registry_enable` | propext, Quot.sound |
| C88 | `GoMetrics.C88_registry_refuted` | propext, Classical.choice, Quot.sound |
| C88 | `GoMetrics.C88_counter` | propext, Quot.sound |
| C88 | `GoMetrics.C88_counter_get_refuted` | propext, Quot.sound |
| C89 | `GoMetrics.EDR.C89_newer` | propext, Classical.choice, Quot.sound |
| C89 | `GoMetrics.EDR.C89_same_second` | propext, Classical.choice, Quot.sound |
| C89 | `GoMetrics.EDR.C89_newer_draws` | propext, Classical.choice, Quot.sound |
| C90 | `GoMetrics.Registry.C90_between` | propext, Classical.choice, Quot.sound |
| C90 | `GoMetrics.Registry.C90_lookups` | propext, Classical.choice, Quot.sound |
| C90 | `GoMetrics.Registry.C90_snapshot_refuted` | propext |
| C91 | `GoMetrics.C91_bucket_counter` | propext, Quot.sound |
| C91 | `GoMetrics.C91_bucket_counter_history` | propext, Classical.choice, Quot.sound |
| C91 | `GoMetrics.C91_query` | propext |
| C91 | `GoMetrics.C91_average` | propext, Classical.choice, Quot.sound |
| C91 | `GoMetrics.C91_decaying_update` | propext, Classical.choice, Quot.sound |
| C91 | `GoMetrics.C91_decaying_snapshot` | propext, Classical.choice, Quot.sound |
| C91 | `GoMetrics.C91_decaying_size` | propext, Classical.choice, Quot.sound |
| C91 | `GoMetrics.C91_compass_uniform` | propext, Classical.choice, Quot.sound |
| C91 | `GoMetrics.C91_compass_decaying` | propext, Classical.choice, Quot.sound |
| C91 | `GoMetrics.C91_compass_rate` | propext, Classical.choice, Quot.sound |
| C91 | `GoMetrics.C91_compass_snapshot` | propext, Classical.choice, Quot.sound |
| C91 | `GoMetrics.C91_compass_uniform_history` | propext, Classical.choice, Quot.sound |
| C91 | `GoMetrics.C91_compass_decaying_history` | propext, Classical.choice, Quot.sound |
| C91 | `GoMetrics.C91_registry_lookup` | propext, Classical.choice, Quot.sound |
| C91 | `GoMetrics.C91_manager_lookup` | propext, Classical.choice, Quot.sound |
| C91 | `GoMetrics.C91_uniform_update` | propext, Quot.sound |
| C91 | `GoMetrics.C91_uniform_read` | propext, Classical.choice, Quot.sound |
| C91 | `GoMetrics.C91_fast_record` | propext, Classical.choice, Quot.sound |
| C91 | `GoMetrics.C91_fast_history` | propext, Classical.choice, Quot.sound |
| C91 | `GoMetrics.C91_compass_bucket` | propext, Classical.choice, Quot.sound |
| C91 | `GoMetrics.C91_compass_bucket_rate` | propext, Classical.choice, Quot.sound |
| C91 | `GoMetrics.C91_compass_bucket_history` | propext, Classical.choice, Quot.sound |
| C91 | `GoMetrics.C91_compass_bucket_snapshot` | propext, Classical.choice, Quot.sound |
| C92 | `GoMetrics.EWMA.C92_accurate` | propext, Classical.choice, Quot.sound |
| C92 | `GoMetrics.EWMA.C92_standard` | propext, Classical.choice, Quot.sound |
| C92 | `GoMetrics.EWMA.C92_fades` | propext, Classical.choice, Quot.sound |
| C92 | `GoMetrics.EWMA.C92_steady` | propext, Classical.choice, Quot.sound |
| C93 | `GoMetrics.C93_uniform_mean` | propext, Classical.choice, Quot.sound |
| C93 | `GoMetrics.C93_bucket_mean` | propext, Classical.choice, Quot.sound |
| C93 | `GoMetrics.C93_mean_rate` | propext, Classical.choice, Quot.sound |
| C93 | `GoMetrics.C93_uniform_variance` | propext, Classical.choice, Quot.sound |
| C93 | `GoMetrics.C93_uniform_stddev` | propext, Classical.choice, Quot.sound |
| C93 | `GoMetrics.C93_float64` | propext, Classical.choice, Quot.sound |
| C93 | `GoMetrics.C93_nearest` | propext, Classical.choice, Quot.sound |
| C93 | `GoMetrics.C93_ties` | propext, Classical.choice, Quot.sound |
| C93 | `GoMetrics.C93_overflow` | propext, Classical.choice, Quot.sound |
| C93 | `GoMetrics.C93_sqrt` | propext, Classical.choice, Quot.sound |
| C93 | `GoMetrics.C93_sqrt_special` | propext, Classical.choice, Quot.sound |
| C93 | `GoMetrics.C93_uniform_stddev_ieee` | propext, Classical.choice, Quot.sound |
| C93 | `GoMetrics.C93_weighted_stddev_ieee` | propext, Classical.choice, Quot.sound |
| C93 | `GoMetrics.C93_weighted_mean` | propext, Classical.choice, Quot.sound |
| C93 | `GoMetrics.C93_weighted_variance` | propext, Classical.choice, Quot.sound |
| C93 | `GoMetrics.C93_weighted_stddev` | propext, Classical.choice, Quot.sound |
| C94 | `GoMetrics.C94_weighted` | propext, Classical.choice, Quot.sound |
| C94 | `GoMetrics.C94_weighted_named` | propext, Classical.choice, Quot.sound |
| C94 | `GoMetrics.C94_uniform` | propext, Classical.choice, Quot.sound |
| C94 | `GoMetrics.C94_uniform_named` | propext, Classical.choice, Quot.sound |
| C95 | `GoMetrics.C95_success` | propext, Classical.choice, Quot.sound |
| C95 | `GoMetrics.C95_error_codes` | propext, Classical.choice, Quot.sound |
| C95 | `GoMetrics.C95_addons` | propext, Classical.choice, Quot.sound |
| C96 | `GoMetrics.C96_own_map` | propext, Classical.choice, Quot.sound |
| C96 | `GoMetrics.C96_frozen` | propext, Classical.choice, Quot.sound |
| C96 | `GoMetrics.C96_nil_tags` | propext, Classical.choice, Quot.sound |
| C96 | `GoMetrics.C96_nil_tags_independent_refuted` | propext, Quot.sound |
| C96 | `GoMetrics.C96_copies_tags_refuted` | propext, Quot.sound |
| C97 | `GoMetrics.C97_snapshot` | propext, Classical.choice, Quot.sound |
| C97 | `GoMetrics.C97_mean` | propext, Classical.choice, Quot.sound |
| C97 | `GoMetrics.C97_uninterrupted` | propext, Quot.sound |
| C97 | `GoMetrics.C97_quiescent` | propext, Classical.choice, Quot.sound |
| C97 | `GoMetrics.C97_too_small_refuted` | propext |
| C97 | `GoMetrics.C97_missed_refuted` | propext |
| C97 | `GoMetrics.C97_straddle_refuted` | propext |
| C97 | `GoMetrics.C97_whole_snapshot` | propext, Classical.choice, Quot.sound |
| C97 | `GoMetrics.C97_whole_mean` | propext, Classical.choice, Quot.sound |
| C97 | `GoMetrics.C97_whole_quiescent` | propext, Classical.choice, Quot.sound |
| C98 | `GoMetrics.C98_garbage` | propext, Classical.choice, Quot.sound |
| C98 | `GoMetrics.C98_counter` | propext, Classical.choice, Quot.sound |
| C98 | `GoMetrics.C98_sequential` | propext, Classical.choice, Quot.sound |
| C98 | `GoMetrics.C98_tight` | propext, Classical.choice, Quot.sound |
| C98 | `GoMetrics.C98_compass` | propext, Classical.choice, Quot.sound |
| C98 | `GoMetrics.C98_compass_bucket` | propext, Classical.choice, Quot.sound |
| C98 | `GoMetrics.C98_fast` | propext, Classical.choice, Quot.sound |
| C98 | `GoMetrics.C98_registry_refuted` | propext, Quot.sound |
| C98 | `GoMetrics.C98_groups_refuted` | propext, Classical.choice, Quot.sound |
| C99 | `GoMetrics.C99_anytime` | propext, Classical.choice, Quot.sound |
| C99 | `GoMetrics.C99_quiescent` | propext, Classical.choice, Quot.sound |
| C99 | `GoMetrics.C99_mean` | propext, Classical.choice, Quot.sound |
| C99 | `GoMetrics.C99_settles` | propext, Classical.choice, Quot.sound |
| C99 | `GoMetrics.C99_fast` | propext, Classical.choice, Quot.sound |
| C99 | `GoMetrics.C99_fast_counts` | propext, Classical.choice, Quot.sound |
| C99 | `GoMetrics.C99_fast_settles` | propext, Classical.choice, Quot.sound |
| C100 | `GoMetrics.C100_bucket_counter` | propext, Classical.choice, Quot.sound |
| C100 | `GoMetrics.C100_registry` | propext, Classical.choice, Quot.sound |
| C100 | `GoMetrics.C100_decaying` | propext, Classical.choice, Quot.sound |
| C100 | `GoMetrics.C100_ewma` | propext, Classical.choice, Quot.sound |
| C100 | `GoMetrics.C100_hash_key` | propext, Classical.choice, Quot.sound |
| C100 | `GoMetrics.C100_uniform` | propext, Classical.choice, Quot.sound |
| C100 | `GoMetrics.C100_fast_compass` | propext, Classical.choice, Quot.sound |
| C100 | `GoMetrics.C100_uniform_refuted` | propext, Classical.choice, Quot.sound |
| C100 | `GoMetrics.C100_program` | propext, Classical.choice, Quot.sound |
| C100 | `GoMetrics.C100_compass_bucket` | propext, Classical.choice, Quot.sound |
| C100 | `GoMetrics.C100_ticks` | propext, Classical.choice, Quot.sound |
| C100 | `GoMetrics.C100_compass` | propext, Classical.choice, Quot.sound |
| C100 | `GoMetrics.C100_compass_uniform` | propext, Classical.choice, Quot.sound |
| C100 | `GoMetrics.C100_compass_decaying` | propext, Classical.choice, Quot.sound |
| C100 | `GoMetrics.C100_program_counts` | propext, Classical.choice, Quot.sound |
| C100 | `GoMetrics.C100_program_fast` | propext, Classical.choice, Quot.sound |
| C101 | `GoMetrics.C101_covers` | propext, Classical.choice, Quot.sound |
| C101 | `GoMetrics.C101_fresh` | propext, Quot.sound |
| C101 | `GoMetrics.C101_ewma_exactly_once` | propext, Classical.choice, Quot.sound |
| C101 | `GoMetrics.C101_ewma_serialisable` | propext, Classical.choice, Quot.sound |
| C101 | `GoMetrics.C101_compass_exactly_once` | propext, Classical.choice, Quot.sound |
| C101 | `GoMetrics.C101_compass_schedule` | propext, Classical.choice, Quot.sound |
| C101 | `GoMetrics.C101_bucket_sums` | propext, Classical.choice, Quot.sound |
| C101 | `GoMetrics.C101_reported_exact` | propext, Classical.choice, Quot.sound |
| C101 | `GoMetrics.C101_buckets_ordered` | propext, Classical.choice, Quot.sound |
| C101 | `GoMetrics.C101_credited_to_a_reading` | propext, Classical.choice, Quot.sound |
| C101 | `GoMetrics.C101_lower_bound` | propext, Classical.choice, Quot.sound |
| C101 | `GoMetrics.C101_visible_refuted` | propext |
| C101 | `GoMetrics.EDRConc.C101_covers_decaying` | propext, Classical.choice, Quot.sound |
| C101 | `GoMetrics.EDRConc.C101_decaying_no_panic` | propext, Classical.choice, Quot.sound |
| C101 | `GoMetrics.EDRConc.C101_decaying_recorded` | propext, Classical.choice, Quot.sound |
| C101 | `GoMetrics.EDRConc.C101_decaying_capacity` | propext, Classical.choice, Quot.sound |
| C101 | `GoMetrics.EDRConc.C101_decaying_due` | propext, Classical.choice, Quot.sound |
| C101 | `GoMetrics.EDRConc.C101_decaying_top` | propext, Classical.choice, Quot.sound |
| C101 | `GoMetrics.EDRConc.C101_rescale_once_refuted` | propext, Classical.choice, Quot.sound |
| C101 | `GoMetrics.EDRConc.C101_weight_refuted` | propext, Classical.choice, Quot.sound |
| C101 | `GoMetrics.C101_covers_registry` | propext, Quot.sound |
| C101 | `GoMetrics.C101_same_metric` | propext, Classical.choice, Quot.sound |
| C101 | `GoMetrics.C101_entries_stay` | propext, Classical.choice, Quot.sound |
| C101 | `GoMetrics.C101_distinct` | propext, Classical.choice, Quot.sound |
| C101 | `GoMetrics.C101_one_registry_per_group` | propext, Classical.choice, Quot.sound |
| C101 | `GoMetrics.C101_keys` | propext, Classical.choice, Quot.sound |
| C101 | `GoMetrics.C101_kinds` | propext, Classical.choice, Quot.sound |
| C101 | `GoMetrics.C101_refused_only_if_full` | propext, Classical.choice, Quot.sound |
| C101 | `GoMetrics.C101_refused_only_if_full_fresh` | propext, Classical.choice, Quot.sound |
| C101 | `GoMetrics.C101_limit_refuted` | propext, Quot.sound |
| C101 | `GoMetrics.C101_disabled_refuted` | propext |
| C102 | `GoMetrics.C102_maps_are_copies` | propext, Classical.choice, Quot.sound |
| C102 | `GoMetrics.C102_enumerations` | propext, Classical.choice, Quot.sound |
| C102 | `GoMetrics.C102_entries_are_shared` | propext, Classical.choice, Quot.sound |
| C102 | `GoMetrics.C102_assigning_refuted` | propext |
| C102 | `GoMetrics.C102_counters_are_shared` | propext, Classical.choice, Quot.sound |
| C102 | `GoMetrics.C102_success_at_most_refuted` | propext, Classical.choice, Quot.sound |
| C102 | `GoMetrics.C102_enable_metrics` | propext, Classical.choice, Quot.sound |
| C102 | `GoMetrics.C102_all_is_shared` | propext, Classical.choice, Quot.sound |
| C102 | `GoMetrics.C102_enable_metrics_refuted` | propext |
| C103 | `GoMetrics.C103_reads_numbers` | propext, Quot.sound |
| C103 | `GoMetrics.C103_reads_strings` | propext, Quot.sound |
| C103 | `GoMetrics.C103_reads_levels` | propext, Quot.sound |
| C103 | `GoMetrics.C103_leaves_others` | propext, Quot.sound |
| C103 | `GoMetrics.C103_errors` | propext, Classical.choice, Quot.sound |
| C103 | `GoMetrics.C103_limits_cannot_be_read` | propext, Quot.sound |
| C103 | `GoMetrics.C103_limits_are_defaults` | propext, Quot.sound |
| C103 | `GoMetrics.C103_limit_refuted` | propext, Classical.choice, Quot.sound |
| C103 | `GoMetrics.C103_limits_are_not_written` | propext, Classical.choice, Quot.sound |
| C103 | `GoMetrics.C103_round_trip` | propext, Classical.choice, Quot.sound |
| C103 | `GoMetrics.C103_seconds` | propext, Quot.sound |
| C103 | `GoMetrics.C103_seconds_refuted` | propext, Classical.choice, Quot.sound |
| C104 | `GoMetrics.C104_uniform_variance` | propext, Classical.choice, Quot.sound |
| C104 | `GoMetrics.C104_uniform_stddev` | propext, Classical.choice, Quot.sound |
| C104 | `GoMetrics.C104_weighted_mean` | propext, Classical.choice, Quot.sound |
| C104 | `GoMetrics.C104_weighted_variance` | propext, Classical.choice, Quot.sound |
| C104 | `GoMetrics.C104_weighted_stddev` | propext, Classical.choice, Quot.sound |
| C104 | `GoMetrics.C104_percentile_accurate` | propext, Classical.choice, Quot.sound |
| C104 | `GoMetrics.C104_unfused_average` | propext, Classical.choice, Quot.sound |
| C104 | `GoMetrics.C104_unfused_percentile` | propext, Classical.choice, Quot.sound |
| C104 | `GoMetrics.C104_unfused_stddev` | propext, Classical.choice, Quot.sound |
| C104 | `GoMetrics.C104_unfused_weighted_mean` | propext, Classical.choice, Quot.sound |
| C104 | `GoMetrics.C104_unfused_weighted_stddev` | propext, Classical.choice, Quot.sound |
| C104 | `GoMetrics.C104_empty` | propext, Classical.choice, Quot.sound |
| C104 | `GoMetrics.C104_single` | propext, Classical.choice, Quot.sound |
| C104 | `GoMetrics.C104_weighted_mean_error` | propext, Classical.choice, Quot.sound |
| C104 | `GoMetrics.C104_ewma_range` | propext, Classical.choice, Quot.sound |
| C104 | `GoMetrics.C104_ewma_idle` | propext, Classical.choice, Quot.sound |
| C104 | `GoMetrics.C104_ewma_accurate` | propext, Classical.choice, Quot.sound |
| C104 | `GoMetrics.C104_percentile_errors` | propext, Classical.choice, Quot.sound |
| C104 | `GoMetrics.C104_percentile_range` | propext, Classical.choice, Quot.sound |
| C104 | `GoMetrics.C104_percentile_monotone` | propext, Classical.choice, Quot.sound |
| C104 | `GoMetrics.C104_percentile_negative_refuted` | propext, Classical.choice, Quot.sound |
| C105 | `GoMetrics.C105_uniform_positions` | propext, Classical.choice, Quot.sound |
| C105 | `GoMetrics.C105_held` | propext, Classical.choice, Quot.sound |
| C105 | `GoMetrics.C105_never_grows` | propext, Classical.choice, Quot.sound |
| C105 | `GoMetrics.C105_readings` | propext, Classical.choice, Quot.sound |
| C105 | `GoMetrics.C105_burst` | propext, Classical.choice, Quot.sound |
| C105 | `GoMetrics.C105_size_refuted` | propext, Classical.choice, Quot.sound |
| C106 | `GoMetrics.C106_ewma` | propext, Classical.choice, Quot.sound |
| C106 | `GoMetrics.C106_mean_rate` | propext, Classical.choice, Quot.sound |
| C106 | `GoMetrics.C106_bucket_mean` | propext, Classical.choice, Quot.sound |
| C106 | `GoMetrics.C106_seconds` | propext, Classical.choice, Quot.sound |
| C106 | `GoMetrics.C106_delta_compare` | propext, Classical.choice, Quot.sound |
| C106 | `GoMetrics.C106_uniform` | propext, Classical.choice, Quot.sound |
| C106 | `GoMetrics.C106_weighted` | propext, Classical.choice, Quot.sound |
| C106 | `GoMetrics.C106_decaying` | propext, Classical.choice, Quot.sound |
| C106 | `GoMetrics.C106_negative_unit_refuted` | propext, Classical.choice, Quot.sound |
| C107 | `GoMetrics.C107_covers` | propext, Classical.choice, Quot.sound |
| C107 | `GoMetrics.C107_any_value` | propext |
| C107 | `GoMetrics.C107_in_range` | propext, Classical.choice, Quot.sound |
| C107 | `GoMetrics.C107_sums` | propext, Classical.choice, Quot.sound |
| C107 | `GoMetrics.C107_bucket_exact` | propext, Classical.choice, Quot.sound |
| C107 | `GoMetrics.C107_reported` | propext, Classical.choice, Quot.sound |
| C107 | `GoMetrics.C107_visible` | propext, Classical.choice, Quot.sound |
| C107 | `GoMetrics.C107_unpublished_refuted` | propext |
| C107 | `GoMetrics.C107_reported_refuted` | propext, Quot.sound |
| C107 | `GoMetrics.C107_backwards_refuted` | propext |
| C108 | `GoMetrics.EDR.C108_rescale` | propext, Classical.choice, Quot.sound |
| C108 | `GoMetrics.EDR.C108_values` | propext, Classical.choice, Quot.sound |
| C108 | `GoMetrics.EDR.C108_all_kept_refuted` | propext, Classical.choice, Quot.sound |
| C109 | `GoMetrics.EDR.C109_weights` | propext, Classical.choice, Quot.sound |
| C109 | `GoMetrics.EDR.C109_mean` | propext, Classical.choice, Quot.sound |
| C109 | `GoMetrics.EDR.C109_percentile` | propext, Classical.choice, Quot.sound |
| C109 | `GoMetrics.EDR.C109_stddev` | propext, Classical.choice, Quot.sound |
| C110 | `GoMetrics.C110_counts` | propext, Classical.choice, Quot.sound |
| C110 | `GoMetrics.C110_panics_iff` | propext, Classical.choice, Quot.sound |
| C110 | `GoMetrics.C110_quiescent` | propext, Classical.choice, Quot.sound |
| C110 | `GoMetrics.C110_limit` | propext, Classical.choice, Quot.sound |
| C110 | `GoMetrics.C110_bucket_counters` | propext, Classical.choice, Quot.sound |
| C110 | `GoMetrics.C110_bucket_anytime` | propext, Classical.choice, Quot.sound |
| C110 | `GoMetrics.C110_bucket_quiescent` | propext, Classical.choice, Quot.sound |
| C110 | `GoMetrics.C110_bucket_covers` | propext, Classical.choice, Quot.sound |
| C110 | `GoMetrics.C110_whole_anytime` | propext, Classical.choice, Quot.sound |
| C110 | `GoMetrics.C110_whole` | propext, Classical.choice, Quot.sound |
| C110 | `GoMetrics.C110_reservoir` | propext, Classical.choice, Quot.sound |
| C110 | `GoMetrics.C110_covers` | propext, Classical.choice, Quot.sound |
| C110 | `GoMetrics.C110_any_value` | propext, Classical.choice, Quot.sound |
| C110 | `GoMetrics.C110_one_winner` | propext, Classical.choice, Quot.sound |
| C110 | `GoMetrics.C110_schedule` | propext, Classical.choice, Quot.sound |
| C110 | `GoMetrics.C110_same_code` | propext, Classical.choice, Quot.sound |
| C110 | `GoMetrics.C110_ends` | propext, Classical.choice, Quot.sound |
| C110 | `GoMetrics.C110_ends_uniform` | propext, Classical.choice, Quot.sound |
| C110 | `GoMetrics.C110_ends_decaying` | propext, Classical.choice, Quot.sound |
| C110 | `GoMetrics.C110_ends_bucket` | propext, Classical.choice, Quot.sound |
| C111 | `GoMetrics.C111_64bit_aligned` | propext, Quot.sound |
| C111 | `GoMetrics.C111_32bit_aligned` | propext, Classical.choice, Quot.sound |
| C111 | `GoMetrics.C111_64bit_average` | propext, Classical.choice, Quot.sound |
| C111 | `GoMetrics.C111_32bit_average_panics` | propext, Classical.choice, Quot.sound |
| C111 | `GoMetrics.C111_32bit_average` | propext, Classical.choice, Quot.sound |
| C111 | `GoMetrics.C111_64bit_compass` | propext, Classical.choice, Quot.sound |
| C111 | `GoMetrics.C111_32bit_update_panics` | propext, Classical.choice, Quot.sound |
| C111 | `GoMetrics.C111_32bit_rate_panics` | propext, Classical.choice, Quot.sound |
| C111 | `GoMetrics.C111_32bit_compass` | propext, Classical.choice, Quot.sound |
| C111 | `GoMetrics.C111_64bit_reservoir` | propext, Classical.choice, Quot.sound |
| C111 | `GoMetrics.C111_32bit_reservoir_call` | propext, Classical.choice, Quot.sound |
| C111 | `GoMetrics.C111_32bit_reservoir` | propext, Classical.choice, Quot.sound |
| C112 | `GoMetrics.C112_bucket_counter` | propext, Classical.choice, Quot.sound |
| C112 | `GoMetrics.C112_uniform` | none |
| C112 | `GoMetrics.C112_bucket_reservoir` | propext, Classical.choice, Quot.sound |
| C112 | `GoMetrics.C112_compass` | propext, Classical.choice, Quot.sound |
| C112 | `GoMetrics.C112_compass_with_type` | propext, Classical.choice, Quot.sound |
| C112 | `GoMetrics.C112_fast_compass` | propext, Classical.choice, Quot.sound |
| C113 | `GoMetrics.C113_anytime` | propext, Classical.choice, Quot.sound |
| C113 | `GoMetrics.C113_quiescent` | propext, Classical.choice, Quot.sound |
| C113 | `GoMetrics.C113_fast` | propext, Classical.choice, Quot.sound |
| C113 | `GoMetrics.C113_covers` | propext, Classical.choice, Quot.sound |
| C113 | `GoMetrics.C113_settles` | propext, Classical.choice, Quot.sound |
| C113 | `GoMetrics.C113_settles_counts` | propext, Classical.choice, Quot.sound |
| C113 | `GoMetrics.C113_settles_fast` | propext, Classical.choice, Quot.sound |
| C114 | `GoMetrics.C114_old` | propext, Classical.choice, Quot.sound |
| C114 | `GoMetrics.C114_old_twice` | propext, Classical.choice, Quot.sound |
| C114 | `GoMetrics.C114_new` | propext, Classical.choice, Quot.sound |
| C114 | `GoMetrics.C114_newer` | propext, Classical.choice, Quot.sound |
| C115 | `GoMetrics.C115_top` | propext, Classical.choice, Quot.sound |
| C115 | `GoMetrics.C115_held` | propext, Classical.choice, Quot.sound |
| C115 | `GoMetrics.C115_old` | propext, Classical.choice, Quot.sound |
| C115 | `GoMetrics.C115_new` | propext, Classical.choice, Quot.sound |
| C115 | `GoMetrics.C115_newer` | propext, Classical.choice, Quot.sound |
| C116 | `GoMetrics.C116_mean` | propext, Classical.choice, Quot.sound |
| C116 | `GoMetrics.C116_variance` | propext, Classical.choice, Quot.sound |
| C116 | `GoMetrics.C116_mean_error` | propext, Classical.choice, Quot.sound |
| C116 | `GoMetrics.C116_share_above` | propext, Classical.choice, Quot.sound |
| C116 | `GoMetrics.C116_share_below` | propext, Classical.choice, Quot.sound |
| C116 | `GoMetrics.C116_percentile` | propext, Classical.choice, Quot.sound |
| C116 | `GoMetrics.C116_some` | propext, Classical.choice, Quot.sound |
| C116 | `GoMetrics.C116_reported_mean` | propext, Classical.choice, Quot.sound |
| C116 | `GoMetrics.C116_default` | propext, Classical.choice, Quot.sound |
| C117 | `GoMetrics.C117_fair` | propext, Classical.choice, Quot.sound |
| C117 | `GoMetrics.C117_as_uniform` | propext, Classical.choice, Quot.sound |
| C117 | `GoMetrics.C117_share_above` | propext, Classical.choice, Quot.sound |
| C117 | `GoMetrics.C117_mean_error` | propext, Classical.choice, Quot.sound |
| C117 | `GoMetrics.C117_twice` | propext, Classical.choice, Quot.sound |
| C117 | `GoMetrics.C117_estimates_refuted` | propext, Classical.choice, Quot.sound |
| C118 | `GoMetrics.C118_uniform` | propext, Classical.choice, Quot.sound |
| C118 | `GoMetrics.C118_some` | propext, Classical.choice, Quot.sound |
| C118 | `GoMetrics.C118_mean` | propext, Classical.choice, Quot.sound |
| C118 | `GoMetrics.C118_mean_error` | propext, Classical.choice, Quot.sound |
| C118 | `GoMetrics.C118_percentile` | propext, Classical.choice, Quot.sound |
| C118 | `GoMetrics.C118_decaying` | propext, Classical.choice, Quot.sound |
| C119 | `GoMetrics.C119_order` | propext, Classical.choice, Quot.sound |
| C119 | `GoMetrics.C119_estimate` | propext, Classical.choice, Quot.sound |
| C119 | `GoMetrics.C119_mean` | propext, Classical.choice, Quot.sound |
| C119 | `GoMetrics.C119_mean_error` | propext, Classical.choice, Quot.sound |
| C119 | `GoMetrics.C119_percentile` | propext, Classical.choice, Quot.sound |
| C119 | `GoMetrics.C119_fair` | propext, Classical.choice, Quot.sound |
| C119 | `GoMetrics.C119_default` | propext, Classical.choice, Quot.sound |
| C120 | `GoMetrics.C120_mean` | propext, Classical.choice, Quot.sound |
| C120 | `GoMetrics.C120_percentile` | propext, Classical.choice, Quot.sound |
| C120 | `GoMetrics.C120_stddev` | propext, Classical.choice, Quot.sound |
| C120 | `GoMetrics.C120_forgets` | propext, Classical.choice, Quot.sound |
| C120 | `GoMetrics.C120_keeps` | propext, Classical.choice, Quot.sound |
| C121 | `GoMetrics.C121_anytime` | propext, Classical.choice, Quot.sound |
| C121 | `GoMetrics.C121_quiescent` | propext, Classical.choice, Quot.sound |
| C121 | `GoMetrics.C121_fast` | propext, Classical.choice, Quot.sound |
| C121 | `GoMetrics.C121_lookups` | propext, Classical.choice, Quot.sound |
| C121 | `GoMetrics.C121_keys` | propext, Classical.choice, Quot.sound |
| C121 | `GoMetrics.C121_covers` | propext |
| C121 | `GoMetrics.C121_settles` | propext, Classical.choice, Quot.sound |
| C121 | `GoMetrics.C121_settles_counts` | propext, Classical.choice, Quot.sound |
| C121 | `GoMetrics.C121_settles_fast` | propext, Classical.choice, Quot.sound |
| C122 | `GoMetrics.C122_counter` | propext, Classical.choice, Quot.sound |
| C122 | `GoMetrics.C122_compass` | propext, Classical.choice, Quot.sound |
| C122 | `GoMetrics.C122_sum` | propext, Classical.choice, Quot.sound |
| C122 | `GoMetrics.C122_query` | propext, Classical.choice, Quot.sound |
| C122 | `GoMetrics.C122_query_covers` | propext, Classical.choice, Quot.sound |
| C123 | `GoMetrics.C123_fast` | propext, Classical.choice, Quot.sound |
| C123 | `GoMetrics.C123_anytime` | propext, Classical.choice, Quot.sound |
| C123 | `GoMetrics.C123_anywhere` | propext, Classical.choice, Quot.sound |
| C123 | `GoMetrics.C123_sum` | propext, Classical.choice, Quot.sound |
| C123 | `GoMetrics.C123_limit_refuted` | propext, Classical.choice, Quot.sound |
| C123 | `GoMetrics.C123_query` | propext, Classical.choice, Quot.sound |
| C123 | `GoMetrics.C123_query_any_loads` | propext, Classical.choice, Quot.sound |
| C123 | `GoMetrics.C123_query_covers` | propext, Classical.choice, Quot.sound |
