{
 "claims": [
  {
   "property": "C01",
   "status": "proved",
   "theorems": [
    "GoMetrics.C01_counter_sum",
    "GoMetrics.C01_counter_exact",
    "GoMetrics.C01_counter_order_independent"
   ],
   "note": ""
  },
  {
   "property": "C02",
   "status": "proved",
   "theorems": [
    "GoMetrics.C02_total",
    "GoMetrics.C02_no_total"
   ],
   "note": ""
  },
  {
   "property": "C03",
   "status": "proved",
   "theorems": [
    "GoMetrics.C03_query_monotone_clock"
   ],
   "note": ""
  },
  {
   "property": "C04",
   "status": "proved",
   "theorems": [
    "GoMetrics.C04_query_arbitrary_clock"
   ],
   "note": ""
  },
  {
   "property": "C05",
   "status": "proved",
   "theorems": [
    "GoMetrics.C05_ring",
    "GoMetrics.C05_at_most_N"
   ],
   "note": ""
  },
  {
   "property": "C06",
   "status": "proved",
   "theorems": [
    "GoMetrics.C06_start_time_filters",
    "GoMetrics.C06_getBucketCounts",
    "GoMetrics.C06_no_placeholders",
    "GoMetrics.C06_placeholder_visible_refuted"
   ],
   "note": "The _refuted theorem only shows that the proviso s > -1000 is needed."
  },
  {
   "property": "C07",
   "status": "proved",
   "theorems": [
    "GoMetrics.C07_keys_aligned",
    "GoMetrics.C07_interval_contains"
   ],
   "note": ""
  },
  {
   "property": "C08",
   "status": "proved",
   "theorems": [
    "GoMetrics.C08_subsecond_panics",
    "GoMetrics.C08_no_panic"
   ],
   "note": ""
  },
  {
   "property": "C09",
   "status": "proved",
   "theorems": [
    "GoMetrics.C09_last_update",
    "GoMetrics.C09_milliseconds_refuted"
   ],
   "note": "Exact characterisation; the documented unit (ms) is refuted by a concrete history."
  },
  {
   "property": "C10",
   "status": "proved",
   "theorems": [
    "GoMetrics.C10_total",
    "GoMetrics.C10_buckets",
    "GoMetrics.C10_reported_exact",
    "GoMetrics.C10_sequential_link"
   ],
   "note": ""
  },
  {
   "property": "C11",
   "status": "proved",
   "theorems": [
    "GoMetrics.C11_latest_monotone",
    "GoMetrics.C11_one_bucket_per_interval"
   ],
   "note": ""
  },
  {
   "property": "C12",
   "status": "proved",
   "theorems": [
    "GoMetrics.C12_visible_refuted",
    "GoMetrics.C12_no_race",
    "GoMetrics.C12_lost_only_by_race"
   ],
   "note": "The plain claim is refuted by a concrete schedule (C12_visible_refuted); C12_lost_only_by_race is the exact claim, C12_no_race the iff when insertions do not overlap."
  },
  {
   "property": "C13",
   "status": "proved",
   "theorems": [
    "GoMetrics.C13_never_earlier_refuted",
    "GoMetrics.C13_credited_to_a_reading",
    "GoMetrics.C13_lower_bound",
    "GoMetrics.C13_earlier_only_by_race"
   ],
   "note": "The plain claim is refuted (C13_never_earlier_refuted); C13_earlier_only_by_race is the exact claim."
  },
  {
   "property": "C14",
   "status": "proved",
   "theorems": [
    "GoMetrics.C14_exact"
   ],
   "note": ""
  },
  {
   "property": "C15",
   "status": "proved",
   "theorems": [
    "GoMetrics.C15_count_with_carry",
    "GoMetrics.C15_rt_modulo",
    "GoMetrics.C15_combined",
    "GoMetrics.C15_without_start_time",
    "GoMetrics.C15_negative_iff"
   ],
   "note": ""
  },
  {
   "property": "C16",
   "status": "proved",
   "theorems": [
    "GoMetrics.C16_limit",
    "GoMetrics.C16_admitted_stay",
    "GoMetrics.C16_reported",
    "GoMetrics.C16_ignored"
   ],
   "note": ""
  },
  {
   "property": "C17",
   "status": "proved",
   "theorems": [
    "GoMetrics.C17_isolated",
    "GoMetrics.C17_getters"
   ],
   "note": ""
  },
  {
   "property": "C18",
   "status": "proved",
   "theorems": [
    "GoMetrics.C18_synchronised_refuted",
    "GoMetrics.C18_writers_exclusive",
    "GoMetrics.C18_insert_only_new",
    "GoMetrics.C18_stable"
   ],
   "note": "The plain claim is refuted (C18_synchronised_refuted); the restated claim is proved in every interleaving."
  },
  {
   "property": "C19",
   "status": "proved",
   "theorems": [
    "GoMetrics.C19_closed_form"
   ],
   "note": ""
  },
  {
   "property": "C20",
   "status": "proved",
   "theorems": [
    "GoMetrics.C20_alphas_in_range",
    "GoMetrics.C20_in_range",
    "GoMetrics.C20_in_range_binary64"
   ],
   "note": ""
  },
  {
   "property": "C21",
   "status": "proved",
   "theorems": [
    "GoMetrics.C21_idle_decays",
    "GoMetrics.C21_idle_exact"
   ],
   "note": ""
  },
  {
   "property": "C22",
   "status": "proved",
   "theorems": [
    "GoMetrics.C22_conservation",
    "GoMetrics.C22_exactly_once",
    "GoMetrics.C22_serialisable",
    "GoMetrics.C22_conservation_any_load",
    "GoMetrics.C22_exactly_once_any_load",
    "GoMetrics.C22_serialisable_any_load",
    "GoMetrics.C22_any_load_covers"
   ],
   "note": "The _any_load theorems: the load in Tick (ewma.go:83, 86) may return any number."
  },
  {
   "property": "C23",
   "status": "proved",
   "theorems": [
    "GoMetrics.C23_count",
    "GoMetrics.C23_success",
    "GoMetrics.C23_success_at_most"
   ],
   "note": ""
  },
  {
   "property": "C24",
   "status": "proved",
   "theorems": [
    "GoMetrics.C24_error_codes",
    "GoMetrics.C24_addons"
   ],
   "note": ""
  },
  {
   "property": "C25",
   "status": "proved",
   "theorems": [
    "GoMetrics.C25_never_panics_refuted",
    "GoMetrics.C25_panics_iff",
    "GoMetrics.C25_panics_iff_update"
   ],
   "note": "Exact characterisation (iff); the naive claim \"never panics\" is refuted by a concrete history."
  },
  {
   "property": "C26",
   "status": "proved",
   "theorems": [
    "GoMetrics.C26_exact",
    "GoMetrics.C26_counts_positive",
    "GoMetrics.C26_zero_then_never_finite",
    "GoMetrics.C26_second_representable",
    "GoMetrics.C26_finite_refuted"
   ],
   "note": "Exact characterisation for every history and lawful rounding; \"finite\" is refuted."
  },
  {
   "property": "C27",
   "status": "proved",
   "theorems": [
    "GoMetrics.C27_formula",
    "GoMetrics.C27_mean_rate_exact",
    "GoMetrics.C27_mean_rate_refuted"
   ],
   "note": "Formula for every history and rounding; quotient over exact arithmetic when creation reads 0 ms; otherwise refuted by a concrete history."
  },
  {
   "property": "C28",
   "status": "proved",
   "theorems": [
    "GoMetrics.C28_silent"
   ],
   "note": ""
  },
  {
   "property": "C29",
   "status": "proved",
   "theorems": [
    "GoMetrics.C29_ticks_are_decays",
    "GoMetrics.C29_schedule_5s",
    "GoMetrics.C29_not_too_many",
    "GoMetrics.C29_sixty_seconds_refuted",
    "GoMetrics.C29_one_second_refuted"
   ],
   "note": "Exact for 5 s, upper bound for intervals dividing 5 s; concrete histories show both can fail otherwise."
  },
  {
   "property": "C30",
   "status": "proved",
   "theorems": [
    "GoMetrics.C30_conservation",
    "GoMetrics.C30_exactly_once",
    "GoMetrics.C30_one_winner",
    "GoMetrics.C30_schedule",
    "GoMetrics.C30_one_winner_refuted",
    "GoMetrics.C30_fed",
    "GoMetrics.C30_alone"
   ],
   "note": "The _refuted theorem shows the divisibility hypothesis of C30_one_winner is needed."
  },
  {
   "property": "C31",
   "status": "proved",
   "theorems": [
    "GoMetrics.C31_instant_counts",
    "GoMetrics.C31_total",
    "GoMetrics.C31_follows"
   ],
   "note": ""
  },
  {
   "property": "C32",
   "status": "proved",
   "theorems": [
    "GoMetrics.C32_same_metric",
    "GoMetrics.C32_entries_stay"
   ],
   "note": ""
  },
  {
   "property": "C33",
   "status": "proved",
   "theorems": [
    "GoMetrics.C33_distinct"
   ],
   "note": ""
  },
  {
   "property": "C34",
   "status": "proved",
   "theorems": [
    "GoMetrics.C34_limit",
    "GoMetrics.C34_real_count"
   ],
   "note": ""
  },
  {
   "property": "C35",
   "status": "proved",
   "theorems": [
    "GoMetrics.C35_overshoot",
    "GoMetrics.C35_limit_refuted",
    "GoMetrics.C35_overshoot_tight"
   ],
   "note": "Bound for every interleaving, and a family of interleavings that reaches it."
  },
  {
   "property": "C36",
   "status": "proved",
   "theorems": [
    "GoMetrics.C36_size",
    "GoMetrics.C36_bounded_refuted",
    "GoMetrics.C36_keys_concurrent"
   ],
   "note": "Exact size; the bound by the limit is refuted."
  },
  {
   "property": "C37",
   "status": "proved",
   "theorems": [
    "GoMetrics.C37_panics_iff",
    "GoMetrics.C37_never_panics_refuted",
    "GoMetrics.C37_concurrent"
   ],
   "note": "iff; the naive claim is refuted."
  },
  {
   "property": "C38",
   "status": "proved",
   "theorems": [
    "GoMetrics.C38_contents",
    "GoMetrics.C38_partition",
    "GoMetrics.C38_last_update",
    "GoMetrics.C38_last_update_concurrent"
   ],
   "note": ""
  },
  {
   "property": "C39",
   "status": "proved",
   "theorems": [
    "GoMetrics.C39_same_string",
    "GoMetrics.C39_value"
   ],
   "note": ""
  },
  {
   "property": "C40",
   "status": "proved",
   "theorems": [
    "GoMetrics.C40_equal",
    "GoMetrics.C40_equal_refuted",
    "GoMetrics.C40_differs_iff",
    "GoMetrics.C40_orders_iff"
   ],
   "note": "iff over all iteration orders; the naive claim is refuted."
  },
  {
   "property": "C41",
   "status": "proved",
   "theorems": [
    "GoMetrics.C41_injective",
    "GoMetrics.C41_injective_refuted"
   ],
   "note": "Injective under the stated syntactic conditions; two different colliding names are exhibited."
  },
  {
   "property": "C42",
   "status": "proved",
   "theorems": [
    "GoMetrics.C42_one_registry_per_group",
    "GoMetrics.C42_isolated"
   ],
   "note": ""
  },
  {
   "property": "C43",
   "status": "proved",
   "theorems": [
    "GoMetrics.C43_disabled",
    "GoMetrics.C43_reenabled",
    "GoMetrics.C43_disabled_concurrent"
   ],
   "note": ""
  },
  {
   "property": "C44",
   "status": "proved",
   "theorems": [
    "GoMetrics.C44_bucket_counter",
    "GoMetrics.C44_compass",
    "GoMetrics.C44_fast_compass",
    "GoMetrics.C44_manager"
   ],
   "note": ""
  },
  {
   "property": "C45",
   "status": "proved",
   "theorems": [
    "GoMetrics.C45_counts",
    "GoMetrics.C45_intervals",
    "GoMetrics.C45_lists",
    "GoMetrics.C45_level_interval_refuted",
    "GoMetrics.C45_global_interval_refuted",
    "GoMetrics.C45_reservoir_type_refuted"
   ],
   "note": "The three _refuted theorems are the stated exceptions."
  },
  {
   "property": "C46",
   "status": "proved",
   "theorems": [
    "GoMetrics.C46_constants",
    "GoMetrics.C46_constants_refuted"
   ],
   "note": "Finite table."
  },
  {
   "property": "C47",
   "status": "proved",
   "theorems": [
    "GoMetrics.C47_wellformed",
    "GoMetrics.C47_no_panic",
    "GoMetrics.C47_error_limit_refuted",
    "GoMetrics.C47_reservoir"
   ],
   "note": "The _refuted theorem is the stated exception."
  },
  {
   "property": "C48",
   "status": "proved",
   "theorems": [
    "GoMetrics.C48_size",
    "GoMetrics.C48_no_panic"
   ],
   "note": ""
  },
  {
   "property": "C49",
   "status": "proved",
   "theorems": [
    "GoMetrics.C49_contents",
    "GoMetrics.C49_one_slot"
   ],
   "note": ""
  },
  {
   "property": "C50",
   "status": "proved",
   "theorems": [
    "GoMetrics.C50_full",
    "GoMetrics.C50_padded",
    "GoMetrics.C50_sample_refuted"
   ],
   "note": "Both cases exact; the naive claim is refuted."
  },
  {
   "property": "C51",
   "status": "proved",
   "theorems": [
    "GoMetrics.C51_range",
    "GoMetrics.C51_uniform",
    "GoMetrics.C51_half",
    "GoMetrics.C51_first"
   ],
   "note": ""
  },
  {
   "property": "C52",
   "status": "proved",
   "theorems": [
    "GoMetrics.C52_fair",
    "GoMetrics.C52_every_subset",
    "GoMetrics.C52_words",
    "GoMetrics.C52_words_return"
   ],
   "note": "C52_fair, C52_every_subset over positions; C52_words, C52_words_return over the words of the source (so 1 / (k over capacity) in the limit). The words of different updates are taken as independent; C105 says what is not so about the seeds."
  },
  {
   "property": "C53",
   "status": "proved",
   "theorems": [
    "GoMetrics.C53_immutable",
    "GoMetrics.C53_reservoir_untouched",
    "GoMetrics.C53_snapshot_is"
   ],
   "note": ""
  },
  {
   "property": "C54",
   "status": "proved",
   "theorems": [
    "GoMetrics.C54_error_iff",
    "GoMetrics.C54_no_panic",
    "GoMetrics.C54_empty",
    "GoMetrics.C54_bounds_are",
    "GoMetrics.C54_range",
    "GoMetrics.C54_range_exact",
    "GoMetrics.C54_range_large_refuted",
    "GoMetrics.C54_range_refuted",
    "GoMetrics.C54_interpolation",
    "GoMetrics.C54_zero",
    "GoMetrics.C54_one"
   ],
   "note": "Range theorem for every lawful rounding that represents the integers used; the _refuted theorem shows the proviso is needed."
  },
  {
   "property": "C55",
   "status": "proved",
   "theorems": [
    "GoMetrics.C55_monotone",
    "GoMetrics.C55_monotone_exact",
    "GoMetrics.C55_percentiles"
   ],
   "note": ""
  },
  {
   "property": "C56",
   "status": "proved",
   "theorems": [
    "GoMetrics.C56_values",
    "GoMetrics.C56_min_max",
    "GoMetrics.C56_mean",
    "GoMetrics.C56_mean_exact",
    "GoMetrics.C56_mean_refuted",
    "GoMetrics.C56_variance_nonneg",
    "GoMetrics.C56_variance_exact",
    "GoMetrics.C56_no_panic"
   ],
   "note": "The _refuted theorem shows the overflow proviso is needed."
  },
  {
   "property": "C57",
   "status": "proved",
   "theorems": [
    "GoMetrics.C57_values",
    "GoMetrics.C57_weights",
    "GoMetrics.C57_quantiles",
    "GoMetrics.C57_quantiles_sorted"
   ],
   "note": ""
  },
  {
   "property": "C58",
   "status": "proved",
   "theorems": [
    "GoMetrics.C58_error_iff",
    "GoMetrics.C58_no_panic",
    "GoMetrics.C58_sampled",
    "GoMetrics.C58_zero"
   ],
   "note": ""
  },
  {
   "property": "C59",
   "status": "proved",
   "theorems": [
    "GoMetrics.C59_monotone",
    "GoMetrics.C59_percentiles"
   ],
   "note": ""
  },
  {
   "property": "C60",
   "status": "proved",
   "theorems": [
    "GoMetrics.C60_between",
    "GoMetrics.C60_boundary",
    "GoMetrics.C60_lower_half_wrong",
    "GoMetrics.C60_definition_refuted"
   ],
   "note": "Both cases (q strictly between two cumulative weights, q equal to one) exact; the naive definition is refuted."
  },
  {
   "property": "C61",
   "status": "proved",
   "theorems": [
    "GoMetrics.C61_mean",
    "GoMetrics.C61_variance",
    "GoMetrics.C61_errors"
   ],
   "note": ""
  },
  {
   "property": "C62",
   "status": "proved",
   "theorems": [
    "GoMetrics.C62_scale"
   ],
   "note": ""
  },
  {
   "property": "C63",
   "status": "proved",
   "theorems": [
    "GoMetrics.EDR.C63_capacity",
    "GoMetrics.EDR.C63_size_exact",
    "GoMetrics.EDR.C63_forward_clock",
    "GoMetrics.EDRConc.C63_conc_capacity",
    "GoMetrics.EDRConc.C63_size_race_refuted"
   ],
   "note": "The _refuted theorem is the stated exception for an overlapping Size()."
  },
  {
   "property": "C64",
   "status": "proved",
   "theorems": [
    "GoMetrics.EDR.C64_top",
    "GoMetrics.EDR.C64_one_update"
   ],
   "note": ""
  },
  {
   "property": "C65",
   "status": "proved",
   "theorems": [
    "GoMetrics.EDR.C65_recorded",
    "GoMetrics.EDR.C65_since_reset",
    "GoMetrics.EDR.C65_reset",
    "GoMetrics.EDRConc.C65_conc_recorded"
   ],
   "note": ""
  },
  {
   "property": "C66",
   "status": "proved",
   "theorems": [
    "GoMetrics.EDR.C66_rescale",
    "GoMetrics.EDR.C66_backward_refuted"
   ],
   "note": "The _refuted theorem shows that the clock proviso is needed."
  },
  {
   "property": "C67",
   "status": "proved",
   "theorems": [
    "GoMetrics.EDR.C67_no_panic",
    "GoMetrics.EDR.C67_capacity_zero",
    "GoMetrics.EDRConc.C67_conc_no_panic",
    "GoMetrics.EDR.C67_capacity_zero_always"
   ],
   "note": ""
  },
  {
   "property": "C68",
   "status": "proved",
   "theorems": [
    "GoMetrics.EDR.C68_one_hour",
    "GoMetrics.EDR.C68_deadline",
    "GoMetrics.EDRConc.C68_conc_due",
    "GoMetrics.EDRConc.C68_once_refuted"
   ],
   "note": "The _refuted theorem is the stated exception."
  },
  {
   "property": "C69",
   "status": "proved",
   "theorems": [
    "GoMetrics.EDRConc.C69_refuted",
    "GoMetrics.EDRConc.C69_no_rescale",
    "GoMetrics.EDRConc.C69_exact",
    "GoMetrics.EDRConc.C69_unraced",
    "GoMetrics.EDRConc.C69_slip"
   ],
   "note": "The plain claim is refuted (C69_refuted); C69_exact with C69_slip is the exact claim."
  },
  {
   "property": "C70",
   "status": "proved",
   "theorems": [
    "GoMetrics.C70_possible",
    "GoMetrics.C70_one_interval",
    "GoMetrics.C70_mixed_refuted",
    "GoMetrics.C70_first_second_refuted",
    "GoMetrics.C70_straddle_refuted"
   ],
   "note": "Exact set of possible snapshots; three concrete histories show the naive claim and both provisos."
  },
  {
   "property": "C71",
   "status": "proved",
   "theorems": [
    "GoMetrics.C71_contract",
    "GoMetrics.C71_not_available",
    "GoMetrics.C71_mean_exact"
   ],
   "note": ""
  },
  {
   "property": "C72",
   "status": "proved",
   "theorems": [
    "GoMetrics.ManualClock.C72_sum",
    "GoMetrics.ManualClock.C72_interleaving",
    "GoMetrics.ManualClock.C72_monotone"
   ],
   "note": ""
  },
  {
   "property": "C73",
   "status": "proved",
   "theorems": [
    "GoMetrics.C73_rounded",
    "GoMetrics.C73_exact",
    "GoMetrics.C73_accepts",
    "GoMetrics.C73_rejects_refuted",
    "GoMetrics.C73_symmetric",
    "GoMetrics.C73_nan"
   ],
   "note": "The _refuted theorem is the stated exception (a rounded difference may accept slightly more)."
  },
  {
   "property": "C74",
   "status": "proved",
   "theorems": [
    "GoMetrics.C74_whole_seconds_exact",
    "GoMetrics.C74_below_48_days_exact",
    "GoMetrics.C74_every_interval_refuted"
   ],
   "note": "The _refuted theorem is the stated exception."
  },
  {
   "property": "C75",
   "status": "proved",
   "theorems": [
    "GoMetrics.EDR.C75_statistics"
   ],
   "note": ""
  },
  {
   "property": "C76",
   "status": "proved",
   "theorems": [
    "GoMetrics.C76_isolation",
    "GoMetrics.C76_durations"
   ],
   "note": ""
  },
  {
   "property": "C77",
   "status": "proved",
   "theorems": [
    "GoMetrics.C77_panics_iff",
    "GoMetrics.C77_counts",
    "GoMetrics.C77_type",
    "GoMetrics.C77_snapshot"
   ],
   "note": ""
  },
  {
   "property": "C78",
   "status": "proved",
   "theorems": [
    "GoMetrics.C78_user_clock",
    "GoMetrics.C78_monotonic_refuted"
   ],
   "note": "The _refuted theorem is the stated exception."
  },
  {
   "property": "C79",
   "status": "proved",
   "theorems": [
    "GoMetrics.C79_linearizable",
    "GoMetrics.C79_size",
    "GoMetrics.C79_no_panic"
   ],
   "note": ""
  },
  {
   "property": "C80",
   "status": "proved",
   "theorems": [
    "GoMetrics.C80_linearizable",
    "GoMetrics.C80_no_lost_record",
    "GoMetrics.C80_limit",
    "GoMetrics.C80_no_panic"
   ],
   "note": ""
  },
  {
   "property": "C81",
   "status": "proved",
   "theorems": [
    "GoMetrics.C81_sound",
    "GoMetrics.C81_complete",
    "GoMetrics.C81_complete_refuted"
   ],
   "note": "Sound for every schedule; complete under the stated proviso; C81_complete_refuted shows the proviso is needed."
  },
  {
   "property": "C82",
   "status": "proved",
   "theorems": [
    "GoMetrics.C82_whole_records"
   ],
   "note": ""
  },
  {
   "property": "C83",
   "status": "proved",
   "theorems": [
    "GoMetrics.C83_counts",
    "GoMetrics.C83_panics_iff",
    "GoMetrics.C83_quiescent",
    "GoMetrics.C83_limit",
    "GoMetrics.C83_room",
    "GoMetrics.C83_bucket_counters",
    "GoMetrics.C83_kept",
    "GoMetrics.C83_progress"
   ],
   "note": ""
  },
  {
   "property": "C84",
   "status": "proved",
   "theorems": [
    "GoMetrics.C84_object",
    "GoMetrics.C84_compass_count",
    "GoMetrics.C84_compass",
    "GoMetrics.C84_fast",
    "GoMetrics.C84_uses_do_not_matter"
   ],
   "note": ""
  },
  {
   "property": "C85",
   "status": "proved",
   "theorems": [
    "GoMetrics.C85_fast_compass",
    "GoMetrics.C85_fast_compass_unused",
    "GoMetrics.C85_compass"
   ],
   "note": ""
  },
  {
   "property": "C86",
   "status": "proved",
   "theorems": [
    "GoMetrics.C86_bucket_anytime",
    "GoMetrics.C86_bucket_quiescent",
    "GoMetrics.C86_anytime",
    "GoMetrics.C86_quiescent",
    "GoMetrics.C86_uniform",
    "GoMetrics.C86_uniform_no_panic",
    "GoMetrics.C86_decaying",
    "GoMetrics.C86_decaying_kept"
   ],
   "note": "Reservoir theorems for the uniform, the decaying and the bucket reservoir; the count and average theorems hold for any reservoir in small steps."
  },
  {
   "property": "C87",
   "status": "proved",
   "theorems": [
    "GoMetrics.C87_bucket_counter",
    "GoMetrics.C87_registry",
    "GoMetrics.C87_decaying",
    "GoMetrics.C87_ewma",
    "GoMetrics.C87_hash_key",
    "GoMetrics.C87_uniform",
    "GoMetrics.C87_fast_compass",
    "GoMetrics.C87_query",
    "GoMetrics.C87_tick_wait_free_refuted",
    "GoMetrics.C87_compass_wait_free_refuted",
    "GoMetrics.C87_compass_bucket",
    "GoMetrics.C87_compass",
    "GoMetrics.C87_compass_uniform",
    "GoMetrics.C87_compass_decaying"
   ],
   "note": "The _refuted theorems are the stated exception."
  },
  {
   "property": "C88",
   "status": "proved",
   "theorems": [
    "GoMetrics.C88_honest",
    "GoMetrics.C88_honest_labels",
    "GoMetrics.C88_uniform",
    "GoMetrics.C88_fast_compass_record",
    "GoMetrics.C88_fast_compass_get_refuted",
    "GoMetrics.C88_hash_key",
    "GoMetrics.C88_hash_key_assign_refuted",
    "GoMetrics.C88_ewma",
    "GoMetrics.C88_ewma_tick_refuted",
    "GoMetrics.C88_get_rate_refuted",
    "GoMetrics.C88_bucket_counter",
    "GoMetrics.C88_bucket_counter_refuted",
    "GoMetrics.C88_bucket_getters_refuted",
    "GoMetrics.C88_query_honest",
    "GoMetrics.C88_query",
    "GoMetrics.C88_query_refuted",
    "GoMetrics.C88_tick",
    "GoMetrics.C88_labels",
    "GoMetrics.C88_labels_refuted",
    "GoMetrics.C88_get_labels_refuted",
    "GoMetrics.C88_decaying",
    "GoMetrics.C88_decaying_refuted",
    "GoMetrics.C88_decaying_count",
    "GoMetrics.C88_registry",
    "GoMetrics.C88_registry_enable",
    "GoMetrics.C88_registry_refuted",
    "GoMetrics.C88_counter",
    "GoMetrics.C88_counter_get_refuted"
   ],
   "note": "A race is two enabled conflicting accesses in a sequentially consistent execution. The _refuted theorems are the stated exceptions. Which accesses are atomic is read off the source and written in Model/Accesses.lean; C88_honest proves that the steps access nothing else."
  },
  {
   "property": "C89",
   "status": "proved",
   "theorems": [
    "GoMetrics.EDR.C89_newer",
    "GoMetrics.EDR.C89_same_second",
    "GoMetrics.EDR.C89_newer_draws"
   ],
   "note": "Counting over finite sets of draws, in exact arithmetic (Arith.Exact): the chance is the fraction of the draws. Ties are excluded (NoTies): with equal priorities the map keeps only one of the two."
  },
  {
   "property": "C90",
   "status": "proved",
   "theorems": [
    "GoMetrics.Registry.C90_between",
    "GoMetrics.Registry.C90_lookups",
    "GoMetrics.Registry.C90_snapshot_refuted"
   ],
   "note": "sync.Map.Range is modelled by its documented contract. The _refuted theorem is the stated exception."
  },
  {
   "property": "C91",
   "status": "proved",
   "theorems": [
    "GoMetrics.C91_bucket_counter",
    "GoMetrics.C91_bucket_counter_history",
    "GoMetrics.C91_query",
    "GoMetrics.C91_average",
    "GoMetrics.C91_decaying_update",
    "GoMetrics.C91_decaying_snapshot",
    "GoMetrics.C91_decaying_size",
    "GoMetrics.C91_compass_uniform",
    "GoMetrics.C91_compass_decaying",
    "GoMetrics.C91_compass_rate",
    "GoMetrics.C91_compass_snapshot",
    "GoMetrics.C91_compass_uniform_history",
    "GoMetrics.C91_compass_decaying_history",
    "GoMetrics.C91_registry_lookup",
    "GoMetrics.C91_manager_lookup",
    "GoMetrics.C91_uniform_update",
    "GoMetrics.C91_uniform_read",
    "GoMetrics.C91_fast_record",
    "GoMetrics.C91_fast_history",
    "GoMetrics.C91_compass_bucket",
    "GoMetrics.C91_compass_bucket_rate",
    "GoMetrics.C91_compass_bucket_history",
    "GoMetrics.C91_compass_bucket_snapshot"
   ],
   "note": "Links the small-step machines to the sequential models. Partial correctness: the call is assumed to have ended (that it ends is C87). A compass with each of the three reservoirs; the uniform reservoir and the fast compass on their own too (C91_uniform_*, C91_fast_*)."
  },
  {
   "property": "C92",
   "status": "proved",
   "theorems": [
    "GoMetrics.EWMA.C92_accurate",
    "GoMetrics.EWMA.C92_standard",
    "GoMetrics.EWMA.C92_fades",
    "GoMetrics.EWMA.C92_steady"
   ],
   "note": "Assumes math.Exp within 2^-52 relative error for every float64 in [-1,0] (Spec.GoodExp). Counts below 2^53 per tick. In a compass the interval is 0 (C26), so this is about the averages as constructed by ewma.go."
  },
  {
   "property": "C93",
   "status": "proved",
   "theorems": [
    "GoMetrics.C93_uniform_mean",
    "GoMetrics.C93_bucket_mean",
    "GoMetrics.C93_mean_rate",
    "GoMetrics.C93_uniform_variance",
    "GoMetrics.C93_uniform_stddev",
    "GoMetrics.C93_float64",
    "GoMetrics.C93_nearest",
    "GoMetrics.C93_ties",
    "GoMetrics.C93_overflow",
    "GoMetrics.C93_sqrt",
    "GoMetrics.C93_sqrt_special",
    "GoMetrics.C93_uniform_stddev_ieee",
    "GoMetrics.C93_weighted_stddev_ieee",
    "GoMetrics.C93_weighted_mean",
    "GoMetrics.C93_weighted_variance",
    "GoMetrics.C93_weighted_stddev"
   ],
   "note": "Assumes of math.Sqrt only that for every float64 it is finite and within 2^-52 relative error (Spec.GoodSqrt); C93_sqrt: the square root of IEEE-754 (Model/Sqrt.lean) is the nearest float64 (C93_sqrt_special: what it is outside the non-negative numbers), so C93_uniform_stddev_ieee and C93_weighted_stddev_ieee have no such hypothesis. C93_float64, C93_nearest, C93_ties, C93_overflow: the rounding of the model against Spec/Float64.lean. Sums that fit int64 are a hypothesis (C56 shows what happens to the mean otherwise)."
  },
  {
   "property": "C94",
   "status": "proved",
   "theorems": [
    "GoMetrics.C94_weighted",
    "GoMetrics.C94_weighted_named",
    "GoMetrics.C94_uniform",
    "GoMetrics.C94_uniform_named"
   ],
   "note": "Weighted snapshots: stated for any sorted arrangement of the samples (the Go sort is not stable). Uniform: differences of values below 2^63, as C54."
  },
  {
   "property": "C95",
   "status": "proved",
   "theorems": [
    "GoMetrics.C95_success",
    "GoMetrics.C95_error_codes",
    "GoMetrics.C95_addons"
   ],
   "note": "The reservoir must not panic (C25/C77: the library's do not) and the interval is at least 1 s."
  },
  {
   "property": "C96",
   "status": "proved",
   "theorems": [
    "GoMetrics.C96_own_map",
    "GoMetrics.C96_frozen",
    "GoMetrics.C96_nil_tags",
    "GoMetrics.C96_nil_tags_independent_refuted",
    "GoMetrics.C96_copies_tags_refuted"
   ],
   "note": "Positive theorems with their exact conditions, and the two refutations with witnesses."
  },
  {
   "property": "C97",
   "status": "proved",
   "theorems": [
    "GoMetrics.C97_snapshot",
    "GoMetrics.C97_mean",
    "GoMetrics.C97_uninterrupted",
    "GoMetrics.C97_quiescent",
    "GoMetrics.C97_too_small_refuted",
    "GoMetrics.C97_missed_refuted",
    "GoMetrics.C97_straddle_refuted",
    "GoMetrics.C97_whole_snapshot",
    "GoMetrics.C97_whole_mean",
    "GoMetrics.C97_whole_quiescent"
   ],
   "note": "One interval is the exact condition for the positive theorems (C97_straddle_refuted shows the need). The sums are int64 sums; C97_mean assumes they stay below 2^53. C97_whole_*: the same for the whole compass, where recording calls, rate getters and several snapshots overlap (Proofs/WholeBucketSnapshot: every schedule of the whole compass is, for each of its snapshots, a schedule of the pair of counters)."
  },
  {
   "property": "C98",
   "status": "proved",
   "theorems": [
    "GoMetrics.C98_garbage",
    "GoMetrics.C98_counter",
    "GoMetrics.C98_sequential",
    "GoMetrics.C98_tight",
    "GoMetrics.C98_compass",
    "GoMetrics.C98_compass_bucket",
    "GoMetrics.C98_fast",
    "GoMetrics.C98_registry_refuted",
    "GoMetrics.C98_groups_refuted"
   ],
   "note": "C98_garbage, C98_counter, C98_sequential, C98_compass, C98_compass_bucket, C98_fast: the bounds, by invariants over all schedules. C98_tight: N+2 attained. C98_registry_refuted, C98_groups_refuted: entries and groups grow without bound, for every n."
  },
  {
   "property": "C99",
   "status": "proved",
   "theorems": [
    "GoMetrics.C99_anytime",
    "GoMetrics.C99_quiescent",
    "GoMetrics.C99_mean",
    "GoMetrics.C99_settles",
    "GoMetrics.C99_fast",
    "GoMetrics.C99_fast_counts",
    "GoMetrics.C99_fast_settles"
   ],
   "note": "C99_anytime, C99_quiescent, C99_settles, C99_mean for compasses; C99_fast, C99_fast_counts, C99_fast_settles for fast compasses. Combines the registry model (C32, C33, C47, App.object) with the small-step models of the objects (C80, C83, C86, C87, C98)."
  },
  {
   "property": "C100",
   "status": "proved",
   "theorems": [
    "GoMetrics.C100_bucket_counter",
    "GoMetrics.C100_registry",
    "GoMetrics.C100_decaying",
    "GoMetrics.C100_ewma",
    "GoMetrics.C100_hash_key",
    "GoMetrics.C100_uniform",
    "GoMetrics.C100_fast_compass",
    "GoMetrics.C100_uniform_refuted",
    "GoMetrics.C100_program",
    "GoMetrics.C100_compass_bucket",
    "GoMetrics.C100_ticks",
    "GoMetrics.C100_compass",
    "GoMetrics.C100_compass_uniform",
    "GoMetrics.C100_compass_decaying",
    "GoMetrics.C100_program_counts",
    "GoMetrics.C100_program_fast"
   ],
   "note": "C100_program (registries, manager and the metrics together), and what has then been counted: C100_program_counts, C100_program_fast; C100_compass (any reservoir whose own calls end), with C100_compass_uniform, C100_compass_decaying, C100_compass_bucket; the parts: C100_bucket_counter, C100_registry, C100_decaying, C100_ewma, C100_hash_key, C100_uniform, C100_fast_compass, C100_ticks. C100_uniform_refuted: with the largest random word at every draw nextRandomPos never ends (a condition on the source is needed, and the statement has it)."
  },
  {
   "property": "C101",
   "status": "proved",
   "theorems": [
    "GoMetrics.C101_covers",
    "GoMetrics.C101_fresh",
    "GoMetrics.C101_ewma_exactly_once",
    "GoMetrics.C101_ewma_serialisable",
    "GoMetrics.C101_compass_exactly_once",
    "GoMetrics.C101_compass_schedule",
    "GoMetrics.C101_bucket_sums",
    "GoMetrics.C101_reported_exact",
    "GoMetrics.C101_buckets_ordered",
    "GoMetrics.C101_credited_to_a_reading",
    "GoMetrics.C101_lower_bound",
    "GoMetrics.C101_visible_refuted",
    "GoMetrics.EDRConc.C101_covers_decaying",
    "GoMetrics.EDRConc.C101_decaying_no_panic",
    "GoMetrics.EDRConc.C101_decaying_recorded",
    "GoMetrics.EDRConc.C101_decaying_capacity",
    "GoMetrics.EDRConc.C101_decaying_due",
    "GoMetrics.EDRConc.C101_decaying_top",
    "GoMetrics.EDRConc.C101_rescale_once_refuted",
    "GoMetrics.EDRConc.C101_weight_refuted",
    "GoMetrics.C101_covers_registry",
    "GoMetrics.C101_same_metric",
    "GoMetrics.C101_entries_stay",
    "GoMetrics.C101_distinct",
    "GoMetrics.C101_one_registry_per_group",
    "GoMetrics.C101_keys",
    "GoMetrics.C101_kinds",
    "GoMetrics.C101_refused_only_if_full",
    "GoMetrics.C101_refused_only_if_full_fresh",
    "GoMetrics.C101_limit_refuted",
    "GoMetrics.C101_disabled_refuted"
   ],
   "note": "C101_covers, C101_covers_registry, C101_covers_decaying: all racy unsynchronised loads (C88) are in steps that may see old values; C101_fresh: with no old values it is the interleaving semantics. Averages: C101_ewma_exactly_once, C101_ewma_serialisable. Compass: C101_compass_exactly_once, C101_compass_schedule. Bucket counters: C101_bucket_sums, C101_reported_exact, C101_buckets_ordered, C101_credited_to_a_reading, C101_lower_bound. Registry: C101_same_metric, C101_entries_stay, C101_distinct, C101_one_registry_per_group, C101_keys, C101_kinds, C101_refused_only_if_full. Decaying reservoir: C101_decaying_no_panic, C101_decaying_recorded, C101_decaying_capacity, C101_decaying_due, C101_decaying_top. What breaks: C101_visible_refuted, C101_limit_refuted, C101_disabled_refuted, C101_rescale_once_refuted, C101_weight_refuted. Not modelled: stores that become visible in another order than they are made, and objects seen before they are initialised."
  },
  {
   "property": "C102",
   "status": "proved",
   "theorems": [
    "GoMetrics.C102_maps_are_copies",
    "GoMetrics.C102_enumerations",
    "GoMetrics.C102_entries_are_shared",
    "GoMetrics.C102_assigning_refuted",
    "GoMetrics.C102_counters_are_shared",
    "GoMetrics.C102_success_at_most_refuted",
    "GoMetrics.C102_enable_metrics",
    "GoMetrics.C102_all_is_shared",
    "GoMetrics.C102_enable_metrics_refuted"
   ],
   "note": "C102_maps_are_copies, C102_enumerations (simulation by the registry of C32-C38), C102_entries_are_shared, C102_assigning_refuted; C102_counters_are_shared, C102_success_at_most_refuted; C102_enable_metrics, C102_all_is_shared, C102_enable_metrics_refuted. One goroutine."
  },
  {
   "property": "C103",
   "status": "proved",
   "theorems": [
    "GoMetrics.C103_reads_numbers",
    "GoMetrics.C103_reads_strings",
    "GoMetrics.C103_reads_levels",
    "GoMetrics.C103_leaves_others",
    "GoMetrics.C103_errors",
    "GoMetrics.C103_limits_cannot_be_read",
    "GoMetrics.C103_limits_are_defaults",
    "GoMetrics.C103_limit_refuted",
    "GoMetrics.C103_limits_are_not_written",
    "GoMetrics.C103_round_trip",
    "GoMetrics.C103_seconds",
    "GoMetrics.C103_seconds_refuted"
   ],
   "note": "C103_reads_numbers, C103_reads_strings, C103_reads_levels, C103_leaves_others, C103_errors, C103_round_trip; C103_limits_cannot_be_read, C103_limits_are_defaults, C103_limits_are_not_written, C103_limit_refuted; C103_seconds, C103_seconds_refuted. The behaviour of encoding/json (dominance of equal tags, folding of keys, type errors, omitempty) is modelled from its documentation and source; the text of documents is not modelled, nor are strings that are not UTF-8."
  },
  {
   "property": "C104",
   "status": "proved",
   "theorems": [
    "GoMetrics.C104_uniform_variance",
    "GoMetrics.C104_uniform_stddev",
    "GoMetrics.C104_weighted_mean",
    "GoMetrics.C104_weighted_variance",
    "GoMetrics.C104_weighted_stddev",
    "GoMetrics.C104_percentile_accurate",
    "GoMetrics.C104_unfused_average",
    "GoMetrics.C104_unfused_percentile",
    "GoMetrics.C104_unfused_stddev",
    "GoMetrics.C104_unfused_weighted_mean",
    "GoMetrics.C104_unfused_weighted_stddev",
    "GoMetrics.C104_empty",
    "GoMetrics.C104_single",
    "GoMetrics.C104_weighted_mean_error",
    "GoMetrics.C104_ewma_range",
    "GoMetrics.C104_ewma_idle",
    "GoMetrics.C104_ewma_accurate",
    "GoMetrics.C104_percentile_errors",
    "GoMetrics.C104_percentile_range",
    "GoMetrics.C104_percentile_monotone",
    "GoMetrics.C104_percentile_negative_refuted"
   ],
   "note": "C104_ewma_range, C104_ewma_idle, C104_ewma_accurate; C104_percentile_errors, C104_percentile_range, C104_percentile_monotone, C104_percentile_accurate, C104_percentile_negative_refuted; C104_uniform_variance, C104_uniform_stddev, C104_weighted_mean, C104_weighted_variance, C104_weighted_stddev. The mean of a uniform snapshot and the percentiles of a weighted one contain no product that feeds an addition."
  },
  {
   "property": "C105",
   "status": "proved",
   "theorems": [
    "GoMetrics.C105_uniform_positions",
    "GoMetrics.C105_held",
    "GoMetrics.C105_never_grows",
    "GoMetrics.C105_readings",
    "GoMetrics.C105_burst",
    "GoMetrics.C105_size_refuted"
   ],
   "note": "C105_uniform_positions; C105_held, C105_never_grows, C105_readings, C105_burst, C105_size_refuted. The algorithm of math/rand is not modelled, only the documented sentence about seeds; draws equal to zero are excluded by hypothesis."
  },
  {
   "property": "C106",
   "status": "proved",
   "theorems": [
    "GoMetrics.C106_ewma",
    "GoMetrics.C106_mean_rate",
    "GoMetrics.C106_bucket_mean",
    "GoMetrics.C106_seconds",
    "GoMetrics.C106_delta_compare",
    "GoMetrics.C106_uniform",
    "GoMetrics.C106_weighted",
    "GoMetrics.C106_decaying",
    "GoMetrics.C106_negative_unit_refuted"
   ],
   "note": "C106_ewma, C106_mean_rate, C106_bucket_mean, C106_seconds, C106_delta_compare, C106_uniform, C106_weighted, C106_decaying; C106_negative_unit_refuted. math.Sqrt and math.Exp are any functions that are those of the other model apart from the sign of zero; Exp gives neither a negative number nor -0, Sqrt gives -0 for -0 only. Draws are not -0 (Float64() is not)."
  },
  {
   "property": "C107",
   "status": "proved",
   "theorems": [
    "GoMetrics.C107_covers",
    "GoMetrics.C107_any_value",
    "GoMetrics.C107_in_range",
    "GoMetrics.C107_sums",
    "GoMetrics.C107_bucket_exact",
    "GoMetrics.C107_reported",
    "GoMetrics.C107_visible",
    "GoMetrics.C107_unpublished_refuted",
    "GoMetrics.C107_reported_refuted",
    "GoMetrics.C107_backwards_refuted"
   ],
   "note": "C107_covers, C107_any_value, C107_in_range, C107_sums, C107_bucket_exact, C107_reported, C107_visible; C107_unpublished_refuted, C107_reported_refuted, C107_backwards_refuted. Atomic operations act on the memory as it is; a timestamp that is not visible reads as 0 (fresh memory)."
  },
  {
   "property": "C108",
   "status": "proved",
   "theorems": [
    "GoMetrics.EDR.C108_rescale",
    "GoMetrics.EDR.C108_values",
    "GoMetrics.EDR.C108_all_kept_refuted"
   ],
   "note": "C108_rescale, C108_values; C108_all_kept_refuted (binary64, one hour, two priorities rounded to one number)."
  },
  {
   "property": "C109",
   "status": "proved",
   "theorems": [
    "GoMetrics.EDR.C109_weights",
    "GoMetrics.EDR.C109_mean",
    "GoMetrics.EDR.C109_percentile",
    "GoMetrics.EDR.C109_stddev"
   ],
   "note": "C109_weights, C109_mean, C109_percentile, C109_stddev. Which updates are held: C64 (exact arithmetic) and C64_one_update (one step, any arithmetic). A witness arithmetic (binary64, exponential within 1 ulp) is constructed (good_lawful, good_exp)."
  },
  {
   "property": "C110",
   "status": "proved",
   "theorems": [
    "GoMetrics.C110_counts",
    "GoMetrics.C110_panics_iff",
    "GoMetrics.C110_quiescent",
    "GoMetrics.C110_limit",
    "GoMetrics.C110_bucket_counters",
    "GoMetrics.C110_bucket_anytime",
    "GoMetrics.C110_bucket_quiescent",
    "GoMetrics.C110_bucket_covers",
    "GoMetrics.C110_whole_anytime",
    "GoMetrics.C110_whole",
    "GoMetrics.C110_reservoir",
    "GoMetrics.C110_covers",
    "GoMetrics.C110_any_value",
    "GoMetrics.C110_one_winner",
    "GoMetrics.C110_schedule",
    "GoMetrics.C110_same_code",
    "GoMetrics.C110_ends",
    "GoMetrics.C110_ends_uniform",
    "GoMetrics.C110_ends_decaying",
    "GoMetrics.C110_ends_bucket"
   ],
   "note": "C110_whole, C110_whole_anytime, C110_reservoir, C110_counts, C110_quiescent, C110_panics_iff, C110_limit, C110_bucket_counters, C110_one_winner, C110_schedule, C110_covers, C110_any_value, C110_same_code; with a bucket reservoir, with such loads too: C110_bucket_anytime, C110_bucket_quiescent, C110_bucket_covers. A compass only calls TickN, which holds the average's mutex. Termination: C110_ends (any reservoir), C110_ends_uniform, C110_ends_decaying, C110_ends_bucket."
  },
  {
   "property": "C111",
   "status": "proved",
   "theorems": [
    "GoMetrics.C111_64bit_aligned",
    "GoMetrics.C111_32bit_aligned",
    "GoMetrics.C111_64bit_average",
    "GoMetrics.C111_32bit_average_panics",
    "GoMetrics.C111_32bit_average",
    "GoMetrics.C111_64bit_compass",
    "GoMetrics.C111_32bit_update_panics",
    "GoMetrics.C111_32bit_rate_panics",
    "GoMetrics.C111_32bit_compass",
    "GoMetrics.C111_64bit_reservoir",
    "GoMetrics.C111_32bit_reservoir_call",
    "GoMetrics.C111_32bit_reservoir"
   ],
   "note": "C111_64bit_* and C111_32bit_*. The layout rule is the gc compiler's, the sizes of sync.Mutex and sync.RWMutex are those of the Go library; sequential calls (on 32 bits each call fails at its first atomic operation, before it changes anything)."
  },
  {
   "property": "C112",
   "status": "proved",
   "theorems": [
    "GoMetrics.C112_bucket_counter",
    "GoMetrics.C112_uniform",
    "GoMetrics.C112_bucket_reservoir",
    "GoMetrics.C112_compass",
    "GoMetrics.C112_compass_with_type",
    "GoMetrics.C112_fast_compass"
   ],
   "note": "C112_bucket_counter, C112_uniform, C112_bucket_reservoir, C112_compass, C112_compass_with_type, C112_fast_compass. That memory may run out is not modelled. C67 says what a decaying reservoir with a capacity of 0 or less does."
  },
  {
   "property": "C113",
   "status": "proved",
   "theorems": [
    "GoMetrics.C113_anytime",
    "GoMetrics.C113_quiescent",
    "GoMetrics.C113_fast",
    "GoMetrics.C113_covers",
    "GoMetrics.C113_settles",
    "GoMetrics.C113_settles_counts",
    "GoMetrics.C113_settles_fast"
   ],
   "note": "C113_anytime, C113_quiescent, C113_fast, C113_covers; for one compass with a bucket reservoir C110_bucket_anytime, C110_bucket_quiescent, C110_bucket_covers. What the interval of a counter is, which only the constructor stores, is not left open. The loads of the number of metrics in a registry and of the manager's switch return what was stored last here; C121 lets them return anything. Termination: C113_settles, C113_settles_counts, C113_settles_fast."
  },
  {
   "property": "C114",
   "status": "proved",
   "theorems": [
    "GoMetrics.C114_old",
    "GoMetrics.C114_old_twice",
    "GoMetrics.C114_new",
    "GoMetrics.C114_newer"
   ],
   "note": "C114_old, C114_old_twice, C114_new, C114_newer; chances are counted over all N^n sequences of draws. Exact arithmetic (e^alpha a rational b, C109 bounds what float64 adds to weights) and independent draws: the code seeds a generator from the clock for every update, so that draws at equal clock readings are equal (C105), which is outside this property."
  },
  {
   "property": "C115",
   "status": "proved",
   "theorems": [
    "GoMetrics.C115_top",
    "GoMetrics.C115_held",
    "GoMetrics.C115_old",
    "GoMetrics.C115_new",
    "GoMetrics.C115_newer"
   ],
   "note": "C115_top and C115_held for every lawful arithmetic; C115_old, C115_new, C115_newer for binary64 and any math.Exp accurate to 1 ulp (chances counted over all 2^(53 n) sequences of draws). This is C64, C89 and C114 without the assumption of exact arithmetic, up to the first rescale; a rescale rounds priorities once more and can merge samples (C108). Independent draws: the code seeds a generator from the clock for every update (C105)."
  },
  {
   "property": "C116",
   "status": "proved",
   "theorems": [
    "GoMetrics.C116_mean",
    "GoMetrics.C116_variance",
    "GoMetrics.C116_mean_error",
    "GoMetrics.C116_share_above",
    "GoMetrics.C116_share_below",
    "GoMetrics.C116_percentile",
    "GoMetrics.C116_some",
    "GoMetrics.C116_reported_mean",
    "GoMetrics.C116_default"
   ],
   "note": "Streams need not have different values (C52 counts subsets of different values). The random words are assumed to be independent and uniform (counted over all tables); the code seeds a math/rand source from the clock for every update (C105). Values below 2^52 in size for the quantiles. The tail bound is Hoeffding's inequality for sampling without replacement, proved through the factorial moments of the number of sampled values in a set; it uses Mathlib's Hoeffding lemma for a two-point measure."
  },
  {
   "property": "C117",
   "status": "proved",
   "theorems": [
    "GoMetrics.C117_fair",
    "GoMetrics.C117_as_uniform",
    "GoMetrics.C117_share_above",
    "GoMetrics.C117_mean_error",
    "GoMetrics.C117_twice",
    "GoMetrics.C117_estimates_refuted"
   ],
   "note": "Exact arithmetic with e^(alpha t) = b^t, as for C64, C75, C89 and C114. Draws are independent, each any of k/N, k < N, with the same chance; the term n^2/N is for draws of zero and equal priorities. Percentiles are not included: GetValue of a weighted snapshot is off by one sample in the upper half (C60)."
  },
  {
   "property": "C118",
   "status": "proved",
   "theorems": [
    "GoMetrics.C118_uniform",
    "GoMetrics.C118_some",
    "GoMetrics.C118_mean",
    "GoMetrics.C118_mean_error",
    "GoMetrics.C118_percentile",
    "GoMetrics.C118_decaying"
   ],
   "note": "Calls do not overlap. The decaying part uses exact arithmetic with e^(0.015 t) = b^t (as C64, C117); the uniform part is for float64 rounding. Unlike C77 no call is required to return: a call that panics on an unknown error code has recorded its duration. Tables of words for which a search would not end are left out (the code would still be looping)."
  },
  {
   "property": "C119",
   "status": "proved",
   "theorems": [
    "GoMetrics.C119_order",
    "GoMetrics.C119_estimate",
    "GoMetrics.C119_mean",
    "GoMetrics.C119_mean_error",
    "GoMetrics.C119_percentile",
    "GoMetrics.C119_fair",
    "GoMetrics.C119_default"
   ],
   "note": "The schedule is fixed before the words are drawn: the scheduler does not look at the positions drawn (a scheduler that does can bias which words end in time, and so the condition that all updates are through). The order of the updates is the order in which they hold the lock. More than 2^63 calls are excluded. As in C51, C52 and C116 the words are those of an ideal source; the code seeds a generator anew for every draw (C105)."
  },
  {
   "property": "C120",
   "status": "proved",
   "theorems": [
    "GoMetrics.C120_mean",
    "GoMetrics.C120_percentile",
    "GoMetrics.C120_stddev",
    "GoMetrics.C120_forgets",
    "GoMetrics.C120_keeps"
   ],
   "note": "Statistics that need a recent measurement say so: when everything held is older, all weights may have underflowed (C109). Beyond the first hour the chances are those of C114 in exact arithmetic. The random numbers are those of an ideal source; the code seeds a generator anew for every draw (C105)."
  },
  {
   "property": "C121",
   "status": "proved",
   "theorems": [
    "GoMetrics.C121_anytime",
    "GoMetrics.C121_quiescent",
    "GoMetrics.C121_fast",
    "GoMetrics.C121_lookups",
    "GoMetrics.C121_keys",
    "GoMetrics.C121_covers",
    "GoMetrics.C121_settles",
    "GoMetrics.C121_settles_counts",
    "GoMetrics.C121_settles_fast"
   ],
   "note": "What the limit promises (C34, C35) cannot hold when the count may be seen as anything; with old values see C101. Termination: C121_settles, C121_settles_counts, C121_settles_fast."
  },
  {
   "property": "C122",
   "status": "proved",
   "theorems": [
    "GoMetrics.C122_counter",
    "GoMetrics.C122_compass",
    "GoMetrics.C122_sum",
    "GoMetrics.C122_query",
    "GoMetrics.C122_query_covers"
   ],
   "note": "C122_query: a query that runs load by load beside the calls, each of whose loads may return something else than what was stored last (if some timestamp was not visible yet to it, an interval said to begin at 0, which is how that looks, is excepted). C122_counter and C122_compass: a query at one moment, which may see any ring."
  },
  {
   "property": "C123",
   "status": "proved",
   "theorems": [
    "GoMetrics.C123_fast",
    "GoMetrics.C123_anytime",
    "GoMetrics.C123_anywhere",
    "GoMetrics.C123_sum",
    "GoMetrics.C123_limit_refuted",
    "GoMetrics.C123_query",
    "GoMetrics.C123_query_any_loads",
    "GoMetrics.C123_query_covers"
   ],
   "note": "C123_fast: any sequential history; C123_anytime: any interleaving, also with a call inside; C123_anywhere: the whole program. These take the query at one moment; C123_query is a query that runs load by load, at a category, beside the small steps of Record calls for this and other categories (Model/FastCompassReader.lean, loads return what was stored last), and C123_query_any_loads one whose loads may return any ring, earlier counts and timestamps not visible yet (Model/FastCompassReaderWild.lean; C123_query_covers: the former runs are among the latter). C123_sum: in numbers. C123_limit_refuted shows that the bound on the milliseconds is needed. That a getter beside the insertion of a new category can crash is C18."
  }
 ]
}