Verif.Selection.C01_changed_event_exact: propext Classical.choice Quot.sound
Verif.Selection.C01_add_range: propext Classical.choice Quot.sound
Verif.Selection.C01_add_range_multiple: propext Classical.choice Quot.sound
Verif.Selection.C02_step: propext Classical.choice Quot.sound
Verif.Selection.C02_multiple_is_set_algebra: propext Classical.choice Quot.sound
Verif.Selection.C03_styles_bound_size: propext Classical.choice Quot.sound
Verif.Selection.C04_single_at_most_one_counterexample: propext Classical.choice Quot.sound
Verif.Selection.C04_single_at_most_one_partial: propext Classical.choice Quot.sound
Verif.Selection.C04_iff_partial: propext Classical.choice Quot.sound
Verif.Selection.C05_insert_index: propext Classical.choice Quot.sound
Verif.Selection.C05_remove_index: propext Classical.choice Quot.sound
Verif.Selection.C05_remove_undoes_insert: propext Classical.choice Quot.sound
Verif.Selection.C06_extend_interval: propext Classical.choice Quot.sound
Verif.Selection.C07_anchor_selected_counterexample: propext Classical.choice Quot.sound
Verif.Selection.C07_anchor_selected_partial: propext Classical.choice Quot.sound
Verif.Selection.C07_iff_partial: propext Classical.choice Quot.sound
Verif.Selection.C08_ordered_indexes: propext Classical.choice Quot.sound
Verif.Selection.C08_current_index: propext Classical.choice Quot.sound
Verif.Selection.C08_eq_ne: propext Classical.choice Quot.sound
Verif.Event.C09_fire_in_order_once: propext Classical.choice Quot.sound
Verif.Event.C10_no_call_after_close: propext Classical.choice Quot.sound
Verif.Event.C10_close_is_final: propext Classical.choice Quot.sound
Verif.Event.C11_raising_does_not_affect_others_counterexample: propext Classical.choice Quot.sound
Verif.Event.C11_raising_does_not_affect_others_partial: propext Classical.choice Quot.sound
Verif.Event.C12_any_all_counterexample: propext Quot.sound
Verif.Event.C12_fire_any_partial: propext Classical.choice Quot.sound
Verif.Event.C12_fire_all_partial: propext Classical.choice Quot.sound
Verif.Event.C12_any_value_partial: propext Classical.choice Quot.sound
Verif.Event.C12_all_value_partial: propext Classical.choice Quot.sound
Verif.Event.C13_listener_count: propext Classical.choice Quot.sound
Verif.Event.C13_drop: propext
Verif.Event.C13_owner_gone: propext Quot.sound
Verif.Event.C13_owner_keeps: propext Classical.choice Quot.sound
Verif.ListModel.C14_replay: propext Classical.choice Quot.sound
Verif.ListModel.C14_effects: propext Classical.choice Quot.sound
Verif.ListModel.C15_mirrors: propext Classical.choice Quot.sound
Verif.ListModel.C15_pure: propext Classical.choice Quot.sound
Verif.ListModel.C15_effects: propext Classical.choice Quot.sound
Verif.ListModel.C15_change_events: propext Classical.choice Quot.sound
Verif.ListModel.C16_selections_counterexample: propext Classical.choice Quot.sound
Verif.ListModel.C16_selections_partial: propext Classical.choice Quot.sound
Verif.ListModel.C16_insert_iff: propext Classical.choice Quot.sound
Verif.ListModel.C16_remove_iff: propext Classical.choice Quot.sound
Verif.ListModel.C17_flattened_counterexample: propext Classical.choice Quot.sound
Verif.ListModel.C17_flattened_partial: propext Classical.choice Quot.sound
Verif.ListModel.C17_outside_unchanged: propext Classical.choice Quot.sound
Verif.ListModel.C17_insert_iff_partial: propext Classical.choice Quot.sound
Verif.ListModel.C17_remove_iff_partial: propext Classical.choice Quot.sound
Verif.ListModel.C18_selections_counterexample: propext Classical.choice Quot.sound
Verif.ListModel.C18_selections_partial: propext Classical.choice Quot.sound
Verif.ListModel.C18_insert_iff: propext Classical.choice Quot.sound
Verif.ListModel.C19_insertion_point: propext Classical.choice Quot.sound
Verif.ListModel.C20_unsorted_partial: propext Classical.choice Quot.sound
Verif.ListModel.C20_move_counterexample: propext Classical.choice Quot.sound
Verif.ListModel.C20_reverse_counterexample: propext Classical.choice Quot.sound
Verif.ListModel.C20_iff_partial: propext Classical.choice Quot.sound
Verif.ListModel.C21_sorted_complete: propext Classical.choice Quot.sound
Verif.ListModel.C22_replayable: propext Classical.choice Quot.sound
Verif.ListModel.C22_one_pair: propext Classical.choice Quot.sound
Verif.ListModel.C23_batched: propext Classical.choice Quot.sound
Verif.ListModel.C24_item_change_partial: propext Classical.choice Quot.sound
Verif.ListModel.C24_otherwise_unmoved_partial: propext Classical.choice Quot.sound
Verif.ListModel.C24_item_change_counterexample: propext Classical.choice Quot.sound
Verif.ListModel.C24_iff_partial: propext Classical.choice Quot.sound
Verif.ListModel.C25_selections_partial: propext Classical.choice Quot.sound
Verif.ListModel.C25_selections_counterexample: propext Classical.choice Quot.sound
Verif.ListModel.C25_insert_iff: propext Classical.choice Quot.sound
Verif.ListModel.C25_remove_iff: propext Classical.choice Quot.sound
Verif.ListModel.C26_iff_partial: propext Classical.choice Quot.sound
Verif.ListModel.C26_names_partial: propext Classical.choice Quot.sound
Verif.ListModel.C26_names_counterexample: propext Classical.choice Quot.sound
Verif.ListModel.C27_algebra: propext Quot.sound
Verif.ListModel.C27_order: propext
Verif.ListModel.C27_simple: propext Classical.choice Quot.sound
Verif.ListModel.C27_raises: propext
Verif.ListModel.C27_deepcopy_partial: propext Quot.sound
Verif.ListModel.C27_deepcopy_counterexample: propext
Verif.Registry.C28_lookup: propext Classical.choice Quot.sound
Verif.Registry.C29_iff_partial: propext Classical.choice Quot.sound
Verif.Registry.C29_get_component_partial: propext Classical.choice Quot.sound
Verif.Registry.C29_get_component_counterexample: propext Classical.choice Quot.sound
Verif.Registry.C30_iff_partial: propext Classical.choice Quot.sound
Verif.Registry.C30_events_partial: propext Classical.choice Quot.sound
Verif.Registry.C30_existing: propext Classical.choice Quot.sound
Verif.Registry.C30_events_counterexample: propext Classical.choice Quot.sound
Verif.RefCount.C31_refcount: propext Classical.choice Quot.sound
Verif.RefCount.C31_raises: propext Quot.sound
Verif.Promise.C32_promise: propext Quot.sound
Verif.Promise.C32_once: propext Quot.sound
Verif.Tasks.C33_perform_partial: propext Quot.sound
Verif.Tasks.C33_clear: propext Quot.sound
Verif.Tasks.C33_bounded: propext Classical.choice Quot.sound
Verif.Tasks.C33_counterexample: -
Verif.Tasks.C33_clearing_iff_partial: propext Classical.choice Quot.sound
Verif.Tasks.C34_taskset_partial: propext Quot.sound
Verif.Tasks.C34_raising_partial: propext Quot.sound
Verif.Tasks.C34_all_run_iff: propext Quot.sound
Verif.Tasks.C34_counterexample: -
Verif.Pool.C35_at_most_once: propext Classical.choice Quot.sound
Verif.Pool.C35_exclusive_partial: propext Classical.choice Quot.sound
Verif.Pool.C35_counterexample: propext Classical.choice Quot.sound
Verif.Pool.C36_closed: propext Classical.choice Quot.sound
Verif.Pool.C36_none_running: propext Classical.choice Quot.sound
Verif.Dispatcher.C37_never_idle: propext
Verif.Dispatcher.C37_progress: propext Classical.choice Quot.sound
Verif.Dispatcher.C38_waiting_partial: propext Quot.sound
Verif.Dispatcher.C38_counterexample: propext
Verif.Stream.C39_consistent: propext Classical.choice Quot.sound
Verif.Stream.C40_fires: propext Classical.choice Quot.sound
Verif.Stream.Debounce.C41_latest: propext Classical.choice Quot.sound
Verif.Stream.Debounce.C41_once: propext
Verif.Stream.Debounce.C41_pending_partial: propext Quot.sound
Verif.Stream.Debounce.C41_iff_partial: propext Quot.sound
Verif.Stream.Debounce.C41_counterexample: -
Verif.Stream.Sample.C42_samples_partial: propext Quot.sound
Verif.Stream.Sample.C42_value_partial: propext Quot.sound
Verif.Stream.Sample.C42_counterexample: propext
Verif.Stream.Sample.C42_latest: propext Quot.sound
Verif.Stream.Sample.C42_at_most_once: propext Quot.sound
Verif.Stream.Sample.C42_kept_partial: propext Quot.sound
Verif.Stream.PropertyStream.C43_property_fires: propext Quot.sound
Verif.Stream.PropertyStream.C43_property_partial: propext Quot.sound
Verif.Stream.PropertyStream.C43_none: propext Quot.sound
Verif.Stream.PropertyStream.C43_counterexample: -
Verif.Stream.Concat.C43_concat: propext Quot.sound
Verif.Stream.C44_references: propext Classical.choice Quot.sound
Verif.Stream.C44_closed_when: propext Classical.choice Quot.sound
Verif.Binding.C45_set: propext Quot.sound
Verif.Binding.C45_history: propext Classical.choice Quot.sound
Verif.Binding.C45_changes: propext Classical.choice Quot.sound
Verif.Binding.C45_calls: propext Classical.choice Quot.sound
Verif.Binding.C45_stream_value: propext
Verif.Binding.C45_stream_follows: propext Classical.choice Quot.sound
Verif.Binding.C46_calls: propext Quot.sound
Verif.Binding.C46_update_source: propext
Verif.Binding.C46_target_value: propext
Verif.Binding.C46_in_sync: propext Quot.sound
Verif.Binding.C47_set_get: propext Quot.sound
Verif.Binding.C47_set_set: propext Classical.choice Quot.sound
Verif.Binding.C47_update_source: propext Classical.choice Quot.sound
Verif.Binding.ListBinding.C48_mirror: propext Classical.choice Quot.sound
Verif.Binding.ListBinding.C48_closed: propext
Verif.Binding.ListBinding.C48_other_keys: propext Quot.sound
Verif.Validator.C49_clamps: propext Quot.sound
Verif.Validator.C49_bounds: propext Classical.choice Quot.sound
Verif.Structured.C50_iff_partial: propext Classical.choice Quot.sound
Verif.Structured.C50_build_partial: propext Quot.sound
Verif.Structured.C50_counterexample: propext
Verif.Structured.C51_iff_partial: propext Classical.choice Quot.sound
Verif.Structured.C51_deepcopy_partial: propext Classical.choice Quot.sound
Verif.Structured.C51_counterexample: propext
Verif.Structured.C51_counterexample_none: propext
Verif.Structured.C51_counterexample_plain: propext
Verif.Structured.C52_fires_partial: propext Classical.choice Quot.sound
Verif.Structured.C52_fires_insert_partial: propext Classical.choice Quot.sound
Verif.Structured.C52_counterexample: propext
Verif.Structured.C52_counterexample_from_dict: propext
Verif.Structured.C52_counterexample_stale: propext
Verif.Structured.C52_at_most_once: propext Classical.choice Quot.sound
Verif.Structured.C52_iff_partial: propext Classical.choice Quot.sound
Verif.Structured.C52_exact_partial: propext Classical.choice Quot.sound
Verif.Structured.C52_counterexample_removal: propext
Verif.Structured.C53_iff_partial: propext Classical.choice Quot.sound
Verif.Structured.C53_same_iff_partial: propext Classical.choice Quot.sound
Verif.Structured.C53_from_dict_partial: propext Classical.choice Quot.sound
Verif.Structured.C53_copy_from_partial: propext Classical.choice Quot.sound
Verif.Structured.C53_copy_all_partial: propext Classical.choice Quot.sound
Verif.Structured.C53_counterexample: propext
Verif.Structured.C54_iff_partial: propext Classical.choice Quot.sound
Verif.Structured.C54_build_ok_partial: propext Classical.choice Quot.sound
Verif.Structured.C54_counterexample: propext
Verif.Persist.C55_round_trip_partial: propext Classical.choice Quot.sound
Verif.Persist.C55_counterexample: propext Classical.choice Quot.sound
Verif.Persist.C55_back: propext Classical.choice Quot.sound
Verif.Persist.C55_iff_partial: propext Classical.choice Quot.sound
Verif.Persist.C56_set: propext Quot.sound
Verif.Persist.C56_clear: propext
Verif.Persist.C56_raises: propext Quot.sound
Verif.Persist.C57_get: propext Quot.sound
Verif.Persist.C57_subscriber: propext Classical.choice Quot.sound
Verif.Persist.C57_subscribe_raises: propext
Verif.Persist.C58_modified_partial: propext Classical.choice Quot.sound
Verif.Persist.C58_counterexample: propext Quot.sound
Verif.Persist.C58_replaced_partial: propext Classical.choice Quot.sound
Verif.Persist.C58_iff_partial: propext Classical.choice Quot.sound
Verif.Persist.C58_counterexample_recursion: propext Classical.choice Quot.sound
Verif.Persist.C59_storage_partial: propext Classical.choice Quot.sound
Verif.Persist.C59_values_partial: propext
Verif.Persist.C59_counterexample: propext
Verif.Persist.C59_counterexample_other: propext
Verif.Persist.C59_iff_partial: propext Classical.choice Quot.sound
Verif.Persist.C59_exact_partial: propext Classical.choice Quot.sound
Verif.Persist.C60_replay: propext Classical.choice Quot.sound
Verif.Persist.C60_lists: propext Quot.sound
Verif.Persist.C60_absent: propext
Verif.Persist.Recorder.C61_replay_partial: propext Classical.choice Quot.sound
Verif.Persist.Recorder.C61_counterexample_insert: propext Quot.sound
Verif.Persist.Recorder.C61_counterexample_remove: propext Quot.sound
Verif.Persist.Recorder.C61_counterexample_later: propext Quot.sound
Verif.Persist.Recorder.C61_counterexample_late: propext Quot.sound
Verif.Persist.Recorder.C61_counterexample_item: propext Quot.sound
Verif.Persist.Recorder.C61_counterexample_recordable: propext Quot.sound
Verif.Geometry.C62_contains: propext
Verif.Geometry.C62_intersect: propext
Verif.Geometry.C62_union: propext Classical.choice Quot.sound
Verif.Geometry.C62_comm: propext
Verif.Geometry.C62_intersects_symm: propext
Verif.Geometry.C62_intersects_partial: propext Classical.choice Quot.sound
Verif.Geometry.C62_intersects_iff: propext Classical.choice Quot.sound
Verif.Geometry.C62_union_least: propext Classical.choice Quot.sound
Verif.Geometry.C62_counterexample: propext Classical.choice Quot.sound
Verif.Geometry.C63_translated: propext Classical.choice Quot.sound
Verif.Geometry.C63_add_partial: propext Classical.choice Quot.sound
Verif.Geometry.C63_size: propext
Verif.Geometry.C63_counterexample: propext
Verif.Geometry.C63_iff_partial: propext Classical.choice Quot.sound
Verif.Geometry.C63_add_float: propext Classical.choice Quot.sound
Verif.Geometry.C64_corners: propext
Verif.Geometry.C64_tlbr: propext
Verif.Geometry.C64_center_partial: propext Classical.choice Quot.sound
Verif.Geometry.C64_counterexample: propext
Verif.Geometry.C64_iff_partial: propext Classical.choice Quot.sound
Verif.Geometry.C64_center_float: propext Classical.choice Quot.sound
Verif.Geometry.C65_fit: propext Classical.choice Quot.sound
Verif.Geometry.C65_inside_iff: propext Classical.choice Quot.sound
Verif.Geometry.C65_fit_size: propext Classical.choice Quot.sound
Verif.Geometry.C66_corners: propext Classical.choice Quot.sound
Verif.Geometry.C66_inverse: propext Classical.choice Quot.sound
Verif.Geometry.C66_compose: propext Classical.choice Quot.sound
Verif.Geometry.C66_rect: propext Classical.choice Quot.sound
Verif.Geometry.C66_rect_inverse: propext Classical.choice Quot.sound
Verif.Geometry.C67_form: propext Classical.choice Quot.sound
Verif.Geometry.C67_least: propext Classical.choice Quot.sound
Verif.Geometry.C67_round: propext Classical.choice Quot.sound
Verif.Geometry.C67_factor: propext Classical.choice Quot.sound
Verif.Geometry.C67_odd: propext Classical.choice Quot.sound
Verif.Geometry.C67_zero: propext Classical.choice Quot.sound
Verif.Geometry.C68_covers: propext Classical.choice Quot.sound
Verif.Geometry.C68_equal: propext Classical.choice Quot.sound
Verif.Geometry.C68_symm: propext Classical.choice Quot.sound
Verif.Geometry.C69_labels: propext Classical.choice Quot.sound
Verif.Geometry.C70_dist: propext Classical.choice Quot.sound
Verif.Geometry.C70_origin: propext Classical.choice Quot.sound
Verif.Geometry.C70_radius: propext Classical.choice Quot.sound
Verif.Geometry.C70_add: propext Classical.choice Quot.sound
Verif.Geometry.C70_back: propext Classical.choice Quot.sound
Verif.Geometry.C70_quarter: propext Classical.choice Quot.sound
Verif.Geometry.C70_diagonal: propext Classical.choice Quot.sound
Verif.Geometry.C70_size: propext Classical.choice Quot.sound
Verif.Geometry.LogTicker.C71_increasing: propext Classical.choice Quot.sound
Verif.Geometry.LogTicker.C71_labels: propext Classical.choice Quot.sound
Verif.Geometry.LogTicker.C71_minor: propext Classical.choice Quot.sound
Verif.Geometry.LogTicker.C71_ends: propext Classical.choice Quot.sound
Verif.Geometry.LogTicker.C71_covers_partial: propext Classical.choice Quot.sound
Verif.Geometry.LogTicker.C71_covers_iff_partial: propext Classical.choice Quot.sound
Verif.Geometry.LogTicker.C71_counterexample: propext Classical.choice Quot.sound
Verif.Converter.C72_spaces: propext Quot.sound
Verif.Converter.C72_round_trip: propext Quot.sound
Verif.Converter.C72_injective: propext Quot.sound
Verif.Converter.C72_digits: propext Quot.sound
Verif.Converter.C72_texts: propext Quot.sound
Verif.Converter.C73_round_trip: propext Classical.choice Quot.sound
Verif.Converter.C73_range: propext Classical.choice Quot.sound
Verif.Converter.C73_step: propext Classical.choice Quot.sound
Verif.Converter.C74_exact: propext Classical.choice Quot.sound
Verif.Converter.C74_double_partial: propext Classical.choice Quot.sound
Verif.Converter.C74_hundred_partial: propext Classical.choice Quot.sound
Verif.Converter.C74_counterexample_drift: propext Classical.choice Quot.sound
Verif.Converter.C74_counterexample: propext Classical.choice Quot.sound
Verif.Converter.C75_back: propext Classical.choice Quot.sound
Verif.Converter.C75_round_trip_partial: propext Classical.choice Quot.sound
Verif.Converter.C75_no_raise: propext Quot.sound
Verif.Converter.C75_counterexample: propext Classical.choice Quot.sound
Verif.Converter.C76_texts: propext Classical.choice Quot.sound
Verif.Converter.C76_round_trip: propext Classical.choice Quot.sound
Verif.Converter.C76_injective: propext Classical.choice Quot.sound
Verif.Converter.C76_stable: propext Classical.choice Quot.sound
Verif.Converter.C76_aware: propext Quot.sound
Verif.Converter.C77_value_partial: propext Classical.choice Quot.sound
Verif.Converter.C77_total_partial: propext Classical.choice Quot.sound
Verif.Converter.C77_zero: propext Classical.choice Quot.sound
Verif.Converter.C77_found_partial: propext Classical.choice Quot.sound
Verif.Converter.C77_none: propext Classical.choice Quot.sound
Verif.Converter.C77_counterexample: propext Classical.choice Quot.sound
Verif.Converter.C77_counterexample_value: propext Classical.choice Quot.sound
Verif.Converter.C78_round_trip: -
Verif.Converter.C78_checked: propext
Verif.Pool.C79_nothing_lost: propext Classical.choice Quot.sound
Verif.Dispatcher.C80_woken_partial: propext Classical.choice Quot.sound
Verif.Dispatcher.C80_counterexample: propext
Verif.Selection.C81_anchor: propext Classical.choice Quot.sound
Verif.Selection.C81_clear_extend: propext Classical.choice Quot.sound
Verif.Selection.C81_remove: propext Classical.choice Quot.sound
Verif.Pool.C82_join: propext Classical.choice Quot.sound
Verif.Pool.C82_workers_end_partial: propext Classical.choice Quot.sound
Verif.Pool.C82_counterexample: propext Classical.choice Quot.sound
Verif.Pool.C83_run_all: propext Classical.choice Quot.sound
Verif.Binding.C84_settles_partial: propext Classical.choice Quot.sound
Verif.Binding.C84_exact_partial: propext Classical.choice Quot.sound
Verif.Binding.C84_told: propext Quot.sound
Verif.Binding.C84_counterexample: propext
Verif.Binding.C84_raise_counterexample: propext
Verif.Binding.C85_property: propext
Verif.Binding.C85_tuple_partial: propext
Verif.Binding.C85_counterexample: propext
Verif.Binding.Attribute.C86_update_partial: propext Quot.sound
Verif.Binding.Attribute.C86_exact_partial: propext Quot.sound
Verif.Binding.Attribute.C86_copies: propext Quot.sound
Verif.Binding.Attribute.C86_copies_since: propext Quot.sound
Verif.Binding.Attribute.C86_counterexample: -
Verif.Binding.TwoWay.C87_set_a: propext
Verif.Binding.TwoWay.C87_set_b: propext
Verif.Binding.TwoWay.C87_history: propext
Verif.Binding.TwoWay.C87_inverse: propext
Verif.Binding.TwoWay.C87_unstable_diverges: propext Classical.choice Quot.sound
Verif.Binding.C88_event: propext Quot.sound
Verif.Binding.C88_called_partial: propext Quot.sound
Verif.Binding.C88_called_iff_partial: propext Quot.sound
Verif.Binding.C88_counterexample: -
Verif.Geometry.C89_labels_partial: propext Classical.choice Quot.sound
Verif.Geometry.C89_counterexample: propext Classical.choice Quot.sound
Verif.Geometry.C89_iff_partial: propext Classical.choice Quot.sound
Verif.Geometry.C90_count: propext Classical.choice Quot.sound
Verif.Geometry.C91_distance: propext Classical.choice Quot.sound
Verif.Geometry.C91_midpoint: propext Classical.choice Quot.sound
Verif.Geometry.C92_inset: propext
Verif.Geometry.C92_points: propext Classical.choice Quot.sound
Verif.Geometry.C92_inset_rect: propext
Verif.Geometry.C93_ne: propext Quot.sound
Verif.Geometry.C93_eq_partial: propext Classical.choice Quot.sound
Verif.Geometry.C93_mixed_partial: propext Classical.choice Quot.sound
Verif.Geometry.C93_counterexample: propext Classical.choice Quot.sound
Verif.Geometry.C94_to_float: propext Classical.choice Quot.sound
Verif.Geometry.C95_contains_partial: propext Classical.choice Quot.sound
Verif.Geometry.C95_iff_partial: propext Classical.choice Quot.sound
Verif.Geometry.C95_counterexample: propext Classical.choice Quot.sound
Verif.Geometry.C96_slice_partial: propext Classical.choice Quot.sound
Verif.Geometry.C96_iff_partial: propext Classical.choice Quot.sound
Verif.Geometry.C96_counterexample: propext Quot.sound
Verif.Geometry.LogTicker.C97_limits_partial: propext Classical.choice Quot.sound
Verif.Geometry.LogTicker.C97_iff_partial: propext Classical.choice Quot.sound
Verif.Geometry.LogTicker.C97_counterexample: propext Classical.choice Quot.sound
Verif.Geometry.LogTicker.C97_counterexample_equal: propext Classical.choice Quot.sound
Verif.Geometry.LogTicker.C98_labels_partial: propext Classical.choice Quot.sound
Verif.Geometry.LogTicker.C98_counterexample: propext Classical.choice Quot.sound
Verif.Converter.C99_units: propext Classical.choice Quot.sound
Verif.Converter.C100_power_of_two: propext Classical.choice Quot.sound
Verif.Converter.C100_round_trip_partial: propext Classical.choice Quot.sound
Verif.Converter.C100_counterexample: propext Classical.choice Quot.sound
Verif.Converter.C100_hundred_partial: propext Classical.choice Quot.sound
Verif.Event.Threads.C101_order: propext Classical.choice Quot.sound
Verif.Event.Threads.C101_complete: propext Classical.choice Quot.sound
Verif.Event.Threads.C101_closed: propext Classical.choice Quot.sound
Verif.Event.Threads.C101_dropped: propext Classical.choice Quot.sound
Verif.Event.Threads.C101_new: propext Classical.choice Quot.sound
Verif.Event.Threads.C101_counterexample: propext Quot.sound
Verif.Structured.Sequence.C102_call_partial: propext Classical.choice Quot.sound
Verif.Structured.Sequence.C102_list_partial: propext Classical.choice Quot.sound
Verif.Structured.Sequence.C102_raises: propext Quot.sound
Verif.Structured.Sequence.C102_counterexample: propext Quot.sound
Verif.Structured.Sequence.C102_counterexample_extend: propext Classical.choice Quot.sound
Verif.Structured.Attributes.C103_read_partial: propext Classical.choice Quot.sound
Verif.Structured.Attributes.C103_dict: propext Classical.choice Quot.sound
Verif.Structured.Attributes.C103_notify: propext Classical.choice Quot.sound
Verif.Structured.Attributes.C103_model: propext Classical.choice Quot.sound
Verif.Structured.Attributes.C103_counterexample: propext Classical.choice Quot.sound
Verif.Structured.Attributes.C103_counterexample_name: propext Classical.choice Quot.sound
Verif.Persist.Copy.C104_copy_partial: propext Classical.choice Quot.sound
Verif.Persist.Copy.C104_iff_partial: propext Classical.choice Quot.sound
Verif.Persist.Copy.C104_counterexample_hidden: propext
Verif.Persist.Copy.C104_counterexample: propext Classical.choice Quot.sound
Verif.Persist.C105_nearest_partial: propext Classical.choice Quot.sound
Verif.Persist.C105_insert_partial: propext Classical.choice Quot.sound
Verif.Persist.C105_own: propext
Verif.Persist.C105_counterexample: propext Quot.sound
Verif.Persist.C105_counterexample_gone: propext Quot.sound
Verif.Persist.C106_accessor_partial: propext Classical.choice Quot.sound
Verif.Persist.C106_read_partial: propext Classical.choice Quot.sound
Verif.Persist.C106_counterexample: propext Classical.choice Quot.sound
Verif.Persist.C106_iff_partial: propext Classical.choice Quot.sound
Verif.Persist.C106_counterexample_swapped: propext Classical.choice Quot.sound
Verif.Small.QueueThreads.C107_order: propext Classical.choice Quot.sound
Verif.Small.QueueThreads.C107_once: propext Classical.choice Quot.sound
Verif.Small.QueueThreads.C107_returns: propext Classical.choice Quot.sound
Verif.Small.QueueThreads.C107_quiet: propext Classical.choice Quot.sound
Verif.Small.QueueThreads.C107_join: propext Classical.choice Quot.sound
Verif.Small.QueueThreads.C107_raised: propext Classical.choice Quot.sound
Verif.Small.QueueThreads.C107_counterexample: propext Classical.choice Quot.sound
Verif.Small.QueueThreads.C107_counterexample_raise: propext Classical.choice Quot.sound
Verif.Small.PromiseThreads.C108_once_partial: propext Quot.sound
Verif.Small.PromiseThreads.C108_no_call_partial: propext Quot.sound
Verif.Small.PromiseThreads.C108_exclusive: propext Quot.sound
Verif.Small.PromiseThreads.C108_counterexample: propext
Verif.Stream.Reentrant.C109_listener_partial: propext Quot.sound
Verif.Stream.Reentrant.C109_mapped_partial: propext Classical.choice Quot.sound
Verif.Stream.Reentrant.C109_counterexample: -
Verif.Stream.Reentrant.C109_counterexample_mapped: -
Verif.Small.RefThreads.C110_count: propext Classical.choice Quot.sound
Verif.Small.RefThreads.C110_order: propext Classical.choice Quot.sound
Verif.Small.RefThreads.C110_calls: propext Classical.choice Quot.sound
Verif.Small.RefThreads.C110_owned: propext Classical.choice Quot.sound
Verif.Small.RefThreads.C110_progress: propext Classical.choice Quot.sound
Verif.Geometry.C111_vector: propext
Verif.Geometry.C111_floordiv_partial: propext Classical.choice Quot.sound
Verif.Geometry.C111_quotient: propext Classical.choice Quot.sound
Verif.Geometry.C111_floor_iff: propext Classical.choice Quot.sound
Verif.Geometry.C111_mul_partial: propext Classical.choice Quot.sound
Verif.Geometry.C111_half: propext Classical.choice Quot.sound
Verif.Geometry.C111_mul_div: propext Classical.choice Quot.sound
Verif.Geometry.C111_counterexample: propext Classical.choice Quot.sound
Verif.Geometry.C111_counterexample_large: propext Classical.choice Quot.sound
Verif.ListModel.C112_chain: propext Classical.choice Quot.sound
Verif.ListModel.C112_all: propext Classical.choice Quot.sound
Verif.ListModel.C112_mapped: propext Classical.choice Quot.sound
Verif.Persist.RecorderTree.C113_replay_partial: propext Classical.choice Quot.sound
Verif.Persist.RecorderTree.C113_counterexample_twice: propext Classical.choice Quot.sound
Verif.Persist.RecorderTree.C113_counterexample_raises: propext Classical.choice Quot.sound
Verif.Small.SetThreads.C114_once: propext Classical.choice Quot.sound
Verif.Small.SetThreads.C114_latest: propext Classical.choice Quot.sound
Verif.Small.SetThreads.C114_batch: propext Classical.choice Quot.sound
Verif.Small.SetThreads.C114_cleared_partial: propext Classical.choice Quot.sound
Verif.Small.SetThreads.C114_order_partial: propext Classical.choice Quot.sound
Verif.Small.SetThreads.C114_counterexample_clear: propext Classical.choice Quot.sound
Verif.Small.SetThreads.C114_counterexample_order: propext Classical.choice Quot.sound
Verif.ListModel.FilteredThreads.C115_settled_partial: propext Classical.choice Quot.sound
Verif.ListModel.FilteredThreads.C115_held: propext Classical.choice Quot.sound
Verif.ListModel.FilteredThreads.C115_counterexample: propext Classical.choice Quot.sound
Verif.Registry.C116_visits_partial: propext Classical.choice Quot.sound
Verif.Registry.C116_announce_partial: propext Classical.choice Quot.sound
Verif.Registry.C116_raises: propext Classical.choice Quot.sound
Verif.Registry.C116_counterexample: propext Classical.choice Quot.sound
Verif.Small.EventLoop.C117_finished_partial: propext Classical.choice Quot.sound
Verif.Small.EventLoop.C117_all_partial: propext Classical.choice Quot.sound
Verif.Small.EventLoop.C117_scheduled: propext Classical.choice Quot.sound
Verif.Small.EventLoop.C117_scheduled_first: propext Classical.choice Quot.sound
Verif.Small.EventLoop.C117_returns: propext Classical.choice Quot.sound
Verif.Small.EventLoop.C117_counterexample: propext Quot.sound
Verif.Stream.CombineThreads.C118_shown: propext Quot.sound
Verif.Stream.CombineThreads.C118_list_partial: propext Quot.sound
Verif.Stream.CombineThreads.C118_value_partial: propext Quot.sound
Verif.Stream.CombineThreads.C118_repair: propext Classical.choice Quot.sound
Verif.Stream.CombineThreads.C118_counterexample: propext
Verif.Stream.CombineThreads.C118_one_stream_counterexample: propext
Verif.ListModel.Reentrant.C119_copy_partial: propext Quot.sound
Verif.ListModel.Reentrant.C119_once_partial: propext Quot.sound
Verif.ListModel.Reentrant.C119_at_most_once: propext Quot.sound
Verif.ListModel.Reentrant.C119_counterexample: propext
Verif.ListModel.Reentrant.C119_reject_counterexample: propext
Verif.ListModel.Reentrant.C119_counterexample_raises: propext
Verif.Persist.C120_over: propext Classical.choice Quot.sound
Verif.Persist.C120_same_partial: propext Classical.choice Quot.sound
Verif.Persist.C120_twice: propext Classical.choice Quot.sound
Verif.Persist.C120_registration: propext Classical.choice Quot.sound
Verif.Persist.C120_counterexample: propext Classical.choice Quot.sound
Verif.Persist.Attributes.C121_property: propext Classical.choice Quot.sound
Verif.Persist.Attributes.C121_read_only: propext Classical.choice Quot.sound
Verif.Persist.Attributes.C121_item_partial: propext Classical.choice Quot.sound
Verif.Persist.Attributes.C121_relationship_partial: propext Classical.choice Quot.sound
Verif.Persist.Attributes.C121_shadow: propext Classical.choice Quot.sound
Verif.Persist.Attributes.C121_taken: propext Classical.choice Quot.sound
Verif.Persist.Attributes.C121_hidden: propext Classical.choice Quot.sound
Verif.Persist.Attributes.C121_class: propext Classical.choice Quot.sound
Verif.Persist.Attributes.C121_counterexample: propext Classical.choice Quot.sound
Verif.Persist.Isolation.C122_assigned_partial: propext Classical.choice Quot.sound
Verif.Persist.Isolation.C122_known: propext Classical.choice Quot.sound
Verif.Persist.Isolation.C122_reachable: propext Classical.choice Quot.sound
Verif.Persist.Isolation.C122_counterexample: propext
Verif.Persist.Isolation.C122_default_counterexample: propext
Verif.ListModel.C123_items: propext Classical.choice Quot.sound
Verif.ListModel.C123_exact_partial: propext Classical.choice Quot.sound
Verif.ListModel.C123_quiet_partial: propext Classical.choice Quot.sound
Verif.ListModel.C123_stuck_partial: propext Classical.choice Quot.sound
Verif.ListModel.C123_counterexample: propext Classical.choice Quot.sound
Verif.Binding.TupleIndex.C124_write: propext Classical.choice Quot.sound
Verif.Binding.TupleIndex.C124_read: propext Classical.choice Quot.sound
Verif.Binding.TupleIndex.C124_told_iff_partial: propext Classical.choice Quot.sound
Verif.Binding.TupleIndex.C124_counterexample: propext
Verif.Binding.TupleIndex.C124_natural: propext Classical.choice Quot.sound
Verif.Geometry.LogTicker.C125_decades: propext Classical.choice Quot.sound
Verif.Geometry.LogTicker.C125_total: propext Classical.choice Quot.sound
Verif.Geometry.LogTicker.C125_every: propext Classical.choice Quot.sound
Verif.ListModel.Raising.C126_observed: propext Classical.choice Quot.sound
Verif.ListModel.Raising.C126_balanced: propext Classical.choice Quot.sound
Verif.ListModel.Raising.C126_unchanged: propext Classical.choice Quot.sound
Verif.ListModel.Raising.C126_recovers_partial: propext Classical.choice Quot.sound
Verif.ListModel.Raising.C126_source_partial: propext Classical.choice Quot.sound
Verif.ListModel.Raising.C126_counterexample_selection: propext Classical.choice Quot.sound
Verif.ListModel.Raising.C126_counterexample_container: propext Classical.choice Quot.sound
Verif.ListModel.Raising.C126_counterexample_removed: propext Classical.choice Quot.sound
Verif.ListModel.Raising.C126_counterexample_order: propext Classical.choice Quot.sound
Verif.ListModel.FlatThreads.C127_inserts_partial: propext Classical.choice Quot.sound
Verif.ListModel.FlatThreads.C127_serial_partial: propext Classical.choice Quot.sound
Verif.ListModel.FlatThreads.C127_counterexample_order: propext
Verif.ListModel.FlatThreads.C127_counterexample_remove: propext
Verif.ListModel.FlatThreads.C127_counterexample_told: propext
Verif.Persist.Custom.C128_assign_iff_partial: propext Classical.choice Quot.sound
Verif.Persist.Custom.C128_storage_partial: propext Classical.choice Quot.sound
Verif.Persist.Custom.C128_written_partial: propext Classical.choice Quot.sound
Verif.Persist.Custom.C128_round_trip_partial: propext Classical.choice Quot.sound
Verif.Persist.Custom.C128_counterexample_stale: propext Classical.choice Quot.sound
Verif.Persist.Custom.C128_counterexample_cleared: propext
Verif.Persist.Custom.C128_counterexample_shared: propext
Verif.Registry.C129_once_partial: propext Classical.choice Quot.sound
Verif.Registry.C129_copy_partial: propext Classical.choice Quot.sound
Verif.Registry.C129_first_partial: propext Classical.choice Quot.sound
Verif.Registry.C129_counterexample_order: propext Classical.choice Quot.sound
Verif.Registry.C129_counterexample_raises: propext Classical.choice Quot.sound
Verif.Dispatcher.C130_interval_partial: propext Classical.choice Quot.sound
Verif.Dispatcher.C130_rate_partial: propext Classical.choice Quot.sound
Verif.Dispatcher.C130_prompt: propext Classical.choice Quot.sound
Verif.Dispatcher.C130_counterexample_forward: propext Classical.choice Quot.sound
Verif.Dispatcher.C130_counterexample_back: propext Classical.choice Quot.sound
Verif.Converter.C131_nearest: propext Classical.choice Quot.sound
Verif.Converter.C131_exact: propext Classical.choice Quot.sound
Verif.Converter.C131_iff: propext Classical.choice Quot.sound
Verif.Converter.C131_order: propext Classical.choice Quot.sound
Verif.Converter.C131_stable: propext Classical.choice Quot.sound
Verif.Converter.C131_physical: propext Classical.choice Quot.sound
Verif.Converter.C131_not_finite: propext Classical.choice Quot.sound
Verif.Persist.Reading.C132_once_partial: propext Classical.choice Quot.sound
Verif.Persist.Reading.C132_complete_partial: propext Quot.sound
Verif.Persist.Reading.C132_marks: propext Quot.sound
Verif.Persist.Reading.C132_inner_first: propext
Verif.Persist.Reading.C132_counterexample_again: -
Verif.Persist.Reading.C132_counterexample_raises: -
Verif.Geometry.C133_contains: propext Classical.choice Quot.sound
Verif.Geometry.C133_intersects: propext Classical.choice Quot.sound
Verif.Geometry.C133_tlbr: propext Classical.choice Quot.sound
Verif.Geometry.C133_tlbr_exact: propext Classical.choice Quot.sound
Verif.Geometry.C133_union: propext Classical.choice Quot.sound
Verif.Geometry.C133_intersect: propext Classical.choice Quot.sound
Verif.Geometry.C133_center: propext Classical.choice Quot.sound
Verif.Geometry.C133_grid_partial: propext Classical.choice Quot.sound
Verif.Geometry.C133_points_partial: propext Classical.choice Quot.sound
Verif.Geometry.C133_counterexample_union: propext Classical.choice Quot.sound
Verif.Geometry.C133_counterexample_intersect: propext Classical.choice Quot.sound
Verif.Geometry.C133_counterexample_intersects: propext Classical.choice Quot.sound
Verif.Geometry.C133_counterexample_back: propext Classical.choice Quot.sound
Verif.Geometry.C134_zero_iff_partial: propext Classical.choice Quot.sound
Verif.Geometry.C134_number_partial: propext Classical.choice Quot.sound
Verif.Geometry.C134_from_one: propext Classical.choice Quot.sound
Verif.Geometry.C134_range_partial: propext Classical.choice Quot.sound
Verif.Geometry.C134_counterexample_number: propext Classical.choice Quot.sound
Verif.Geometry.C134_counterexample_range: propext Classical.choice Quot.sound
Verif.Geometry.C134_counterexample_above: propext Classical.choice Quot.sound
Verif.Geometry.C135_labels_partial: propext Classical.choice Quot.sound
Verif.Geometry.C135_counterexample: propext Classical.choice Quot.sound
Verif.Geometry.C135_counterexample_negative: propext Classical.choice Quot.sound
Verif.Persist.ModifiedTime.C136_texts: propext Classical.choice Quot.sound
Verif.Persist.ModifiedTime.C136_round_trip: propext Classical.choice Quot.sound
Verif.Persist.ModifiedTime.C136_fraction: propext Classical.choice Quot.sound
Verif.Persist.ModifiedTime.C136_counterexample_milliseconds: propext Classical.choice Quot.sound
Verif.Persist.ModifiedTime.C136_aware: propext Classical.choice Quot.sound
Verif.Persist.ModifiedTime.C136_counterexample_not_written: propext Classical.choice Quot.sound
Verif.Persist.ModifiedTime.C136_stored_partial: propext Classical.choice Quot.sound
Verif.ListModel.KeyRaises.C137_observed: propext Classical.choice Quot.sound
Verif.ListModel.KeyRaises.C137_balanced: propext Classical.choice Quot.sound
Verif.ListModel.KeyRaises.C137_unchanged_partial: propext Classical.choice Quot.sound
Verif.ListModel.KeyRaises.C137_change: propext Classical.choice Quot.sound
Verif.ListModel.KeyRaises.C137_recovers_partial: propext Classical.choice Quot.sound
Verif.ListModel.KeyRaises.C137_source_partial: propext Classical.choice Quot.sound
Verif.ListModel.KeyRaises.C137_counterexample_lost: propext Classical.choice Quot.sound
Verif.ListModel.KeyRaises.C137_counterexample_none: propext Classical.choice Quot.sound
Verif.ListModel.KeyRaises.C137_counterexample_selection: propext Classical.choice Quot.sound
Verif.Geometry.LogTicker.C138_finite_partial: propext Classical.choice Quot.sound
Verif.Geometry.LogTicker.C138_iff_partial: propext Classical.choice Quot.sound
Verif.Geometry.LogTicker.C138_raises_iff_partial: propext Classical.choice Quot.sound
Verif.Geometry.LogTicker.C138_limits_partial: propext Classical.choice Quot.sound
Verif.Geometry.LogTicker.C138_counterexample_raises: propext Classical.choice Quot.sound
Verif.Geometry.LogTicker.C138_counterexample_infinite: propext Classical.choice Quot.sound
Verif.Geometry.LogTicker.C138_counterexample_small: propext Classical.choice Quot.sound
Verif.Geometry.C139_twice: propext Classical.choice Quot.sound
Verif.Geometry.C139_moves: propext Classical.choice Quot.sound
Verif.Geometry.C139_add_partial: propext Classical.choice Quot.sound
Verif.Geometry.C139_points_partial: propext Classical.choice Quot.sound
Verif.Geometry.C139_iff_partial: propext Classical.choice Quot.sound
Verif.Geometry.C139_even: propext Classical.choice Quot.sound
Verif.Geometry.C139_counterexample: propext
Verif.Geometry.C139_float: propext Classical.choice Quot.sound
Verif.Geometry.C140_origin: propext Classical.choice Quot.sound
Verif.Geometry.C140_corner_partial: propext Classical.choice Quot.sound
Verif.Geometry.C140_monotone: propext Classical.choice Quot.sound
Verif.Geometry.C140_inside_partial: propext Classical.choice Quot.sound
Verif.Geometry.C140_near: propext Classical.choice Quot.sound
Verif.Geometry.C140_size: propext Classical.choice Quot.sound
Verif.Geometry.C140_counterexample_corner: propext Classical.choice Quot.sound
Verif.Geometry.C140_counterexample_back: propext Classical.choice Quot.sound
Verif.Geometry.C140_counterexample_rect: propext Classical.choice Quot.sound
Verif.Geometry.C141_wide_partial: propext Classical.choice Quot.sound
Verif.Geometry.C141_tall_partial: propext Classical.choice Quot.sound
Verif.Geometry.C141_ratio: propext Classical.choice Quot.sound
Verif.Geometry.C141_counterexample: propext Classical.choice Quot.sound
Verif.Geometry.C141_counterexample_wide: propext Classical.choice Quot.sound
Verif.Geometry.LogTickerD.C142_near_partial: propext Classical.choice Quot.sound
Verif.Geometry.LogTickerD.C142_labels_partial: propext Classical.choice Quot.sound
Verif.Geometry.LogTickerD.C142_increasing_partial: propext Classical.choice Quot.sound
Verif.Geometry.LogTickerD.C142_distinct_partial: propext Classical.choice Quot.sound
Verif.Geometry.LogTickerD.C142_minor_partial: propext Classical.choice Quot.sound
Verif.Geometry.LogTickerD.C142_covers_partial: propext Classical.choice Quot.sound
Verif.Geometry.LogTickerD.C142_counterexample: propext Classical.choice Quot.sound
Verif.Binding.Threads.C143_not_older: propext Quot.sound
Verif.Binding.Threads.C143_seen: propext Classical.choice Quot.sound
Verif.Binding.Threads.C143_partial: propext Classical.choice Quot.sound
Verif.Binding.Threads.C143_recovers: propext Classical.choice Quot.sound
Verif.Binding.Threads.C143_counterexample: propext
Verif.Binding.Threads.C144_elements: propext Quot.sound
Verif.Binding.Threads.C144_rolls_back: propext Quot.sound
Verif.Binding.Threads.C144_partial: propext Classical.choice Quot.sound
Verif.Binding.Threads.C144_counterexample: propext
Verif.Selection.C145_iff_partial: propext Classical.choice Quot.sound
Verif.Selection.C145_anchor: propext Classical.choice Quot.sound
Verif.Selection.C145_counterexample: propext Classical.choice Quot.sound
Verif.Selection.C146_refines: propext Classical.choice Quot.sound
Verif.Selection.C146_others: propext Classical.choice Quot.sound
Verif.Selection.C146_read: propext Classical.choice Quot.sound
Verif.Selection.C146_snapshot_partial: propext Classical.choice Quot.sound
Verif.Selection.C146_snapshot_iff: propext Classical.choice Quot.sound
Verif.Selection.C146_counterexample: propext Classical.choice Quot.sound
Verif.Geometry.C147_near: propext Classical.choice Quot.sound
Verif.Geometry.C147_size: propext Classical.choice Quot.sound
Verif.Geometry.C147_dist: propext Classical.choice Quot.sound
Verif.Geometry.C147_back: propext Classical.choice Quot.sound
Verif.Geometry.C147_origin: propext Classical.choice Quot.sound
Verif.Geometry.C147_zero_partial: propext Classical.choice Quot.sound
Verif.Geometry.C147_zero_about_zero: propext Classical.choice Quot.sound
Verif.Geometry.C147_counterexample: propext Classical.choice Quot.sound
Verif.Geometry.C148_symmetric: propext Classical.choice Quot.sound
Verif.Geometry.C148_raises_iff_partial: propext Classical.choice Quot.sound
Verif.Geometry.C148_zero_iff_partial: propext Classical.choice Quot.sound
Verif.Geometry.C148_same: propext Classical.choice Quot.sound
Verif.Geometry.C148_apart_partial: propext Classical.choice Quot.sound
Verif.Geometry.C148_near_partial: propext Classical.choice Quot.sound
Verif.Geometry.C148_midpoint_partial: propext Classical.choice Quot.sound
Verif.Geometry.C148_midpoint_symmetric: propext Classical.choice Quot.sound
Verif.Geometry.C148_counterexample_raises: propext Classical.choice Quot.sound
Verif.Geometry.C148_counterexample_zero: propext Classical.choice Quot.sound
Verif.Geometry.C148_counterexample_midpoint: propext Classical.choice Quot.sound
Verif.Geometry.LogTicker.C149_seen_partial: propext Classical.choice Quot.sound
Verif.Geometry.LogTicker.C149_iff_partial: propext Classical.choice Quot.sound
Verif.Geometry.LogTicker.C149_counterexample: propext Classical.choice Quot.sound
Verif.Converter.C150_round_trip: propext Quot.sound
Verif.Converter.C150_injective: propext Quot.sound
Verif.Converter.C150_names: propext Classical.choice Quot.sound
Verif.Converter.C150_root: propext
Verif.Converter.C150_stable: propext Classical.choice Quot.sound
Verif.Converter.C150_text_iff: propext Quot.sound
Verif.Converter.C151_float: propext Classical.choice Quot.sound
Verif.Converter.C151_float_only: propext Classical.choice Quot.sound
Verif.Converter.C151_physical_partial: propext Classical.choice Quot.sound
Verif.Converter.C151_counterexample: propext Classical.choice Quot.sound
Verif.Converter.C152_agree_partial: propext Classical.choice Quot.sound
Verif.Converter.C152_counterexample: propext Classical.choice Quot.sound
Verif.Converter.C152_counterexample_thousands: propext Classical.choice Quot.sound
Verif.Converter.C152_counterexample_infinity: propext Classical.choice Quot.sound
Verif.Stream.Raising.C153_stream_iff_partial: propext Classical.choice Quot.sound
Verif.Stream.Raising.C153_network_iff: propext
Verif.Stream.Raising.C153_history_partial: propext Classical.choice Quot.sound
Verif.Stream.Raising.C153_counterexample: propext
Verif.Binding.RaisingCmp.C154_set: propext Quot.sound
Verif.Binding.RaisingCmp.C154_raises_iff: propext Classical.choice Quot.sound
Verif.Binding.RaisingCmp.C154_follow_iff_partial: propext Classical.choice Quot.sound
Verif.Binding.RaisingCmp.C154_handled: propext
Verif.Binding.RaisingCmp.C154_total: propext Classical.choice Quot.sound
Verif.Binding.RaisingCmp.C154_stuck_counterexample: propext Quot.sound
Verif.Converter.C155_nearest: propext Classical.choice Quot.sound
Verif.Converter.C155_iff: propext Classical.choice Quot.sound
Verif.Converter.C155_stable: propext Classical.choice Quot.sound
Verif.Converter.C155_order: propext Classical.choice Quot.sound
Verif.Structured.ArrayEvents.C156_mirror_partial: propext Classical.choice Quot.sound
Verif.Structured.ArrayEvents.C156_step_iff_partial: propext Classical.choice Quot.sound
Verif.Structured.ArrayEvents.C156_raises_iff: propext Classical.choice Quot.sound
Verif.Structured.ArrayEvents.C156_counterexample: propext
Verif.ListModel.MapRaises.C157_insert_iff_partial: propext Classical.choice Quot.sound
Verif.ListModel.MapRaises.C157_insert_raises: propext Quot.sound
Verif.ListModel.MapRaises.C157_remove_iff_partial: propext Classical.choice Quot.sound
Verif.ListModel.MapRaises.C157_remove_raised_iff_partial: propext Classical.choice Quot.sound
Verif.ListModel.MapRaises.C157_total: propext Quot.sound
Verif.ListModel.MapRaises.C157_counterexample: propext
Verif.ListModel.MapRaises.C157_counterexample_unmap: propext
Verif.ListModel.MappedThreads.C158_in_order_partial: propext Quot.sound
Verif.ListModel.MappedThreads.C158_insertions_partial: propext Quot.sound
Verif.ListModel.MappedThreads.C158_overlap_iff_partial: propext Quot.sound
Verif.ListModel.MappedThreads.C158_counterexample: propext
Verif.ListModel.MappedThreads.C158_counterexample_phantom: propext
Verif.Converter.C159_finite: propext Classical.choice Quot.sound
Verif.Converter.C159_iff_partial: propext Classical.choice Quot.sound
Verif.Converter.C159_normal: propext Classical.choice Quot.sound
Verif.Converter.C159_counterexample: propext Classical.choice Quot.sound
Verif.Stream.ValueThreads.C160_last: propext Classical.choice Quot.sound
Verif.Stream.ValueThreads.C160_iff_partial: propext Classical.choice Quot.sound
Verif.Stream.ValueThreads.C160_delivered: propext Classical.choice Quot.sound
Verif.Stream.ValueThreads.C160_one_sends_partial: propext Classical.choice Quot.sound
Verif.Stream.ValueThreads.C160_assigned: propext Classical.choice Quot.sound
Verif.Stream.ValueThreads.C160_counterexample: propext
Verif.Stream.ConcatAgain.C161_value: propext Classical.choice Quot.sound
Verif.Stream.ConcatAgain.C161_iff_partial: propext Classical.choice Quot.sound
Verif.Stream.ConcatAgain.C161_fresh_partial: propext Classical.choice Quot.sound
Verif.Stream.ConcatAgain.C161_held_partial: propext Classical.choice Quot.sound
Verif.Stream.ConcatAgain.C161_references: propext Classical.choice Quot.sound
Verif.Stream.ConcatAgain.C161_counterexample: propext
Verif.Stream.ConcatAgain.C161_counterexample_false: propext
Verif.Registry.Threads.C162_own_partial: propext Classical.choice Quot.sound
Verif.Registry.Threads.C162_final_partial: propext Classical.choice Quot.sound
Verif.Registry.Threads.C162_get_partial: propext Classical.choice Quot.sound
Verif.Registry.Threads.C162_counterexample_twice: propext Classical.choice Quot.sound
Verif.Registry.Threads.C162_counterexample_lost: propext Classical.choice Quot.sound
Verif.Registry.Threads.C162_counterexample_get: propext Classical.choice Quot.sound
Verif.Structured.Closing.C163_told_partial: propext Classical.choice Quot.sound
Verif.Structured.Closing.C163_iff_partial: propext Classical.choice Quot.sound
Verif.Structured.Closing.C163_answers_partial: propext Classical.choice Quot.sound
Verif.Structured.Closing.C163_counterexample: propext Quot.sound
Verif.Selection.C164_copies_partial: propext Classical.choice Quot.sound
Verif.Selection.C164_first: propext Classical.choice Quot.sound
Verif.Selection.C164_order: propext Classical.choice Quot.sound
Verif.Selection.C164_counterexample: propext Classical.choice Quot.sound
Verif.Selection.C165_settles: propext Classical.choice Quot.sound
Verif.Selection.C165_iff_partial: propext Classical.choice Quot.sound
Verif.Selection.C165_settled_partial: propext Classical.choice Quot.sound
Verif.Selection.C165_counterexample: propext Classical.choice Quot.sound
Verif.Binding.Closing.C166_shows_partial: propext Classical.choice Quot.sound
Verif.Binding.Closing.C166_first: propext Classical.choice Quot.sound
Verif.Binding.Closing.C166_equal: propext Classical.choice Quot.sound
Verif.Binding.Closing.C166_assign_partial: propext Classical.choice Quot.sound
Verif.Binding.Closing.C166_closed: propext
Verif.Binding.Closing.C166_counterexample: -
Verif.ListModel.MappedReplace.C167_iff_partial: propext Classical.choice Quot.sound
Verif.ListModel.MappedReplace.C167_surplus_partial: propext Classical.choice Quot.sound
Verif.ListModel.MappedReplace.C167_polite_partial: propext Classical.choice Quot.sound
Verif.ListModel.MappedReplace.C167_replay: propext Quot.sound
Verif.ListModel.MappedReplace.C167_counterexample: propext
Verif.ListModel.MappedReplace.C167_counterexample_stops: propext Quot.sound
Verif.Geometry.C168_back: propext Classical.choice Quot.sound
Verif.Geometry.C168_bounds: propext Classical.choice Quot.sound
Verif.Geometry.C168_iff_partial: propext Classical.choice Quot.sound
Verif.Geometry.C168_inside_partial: propext Classical.choice Quot.sound
Verif.Geometry.C168_intersect: propext Classical.choice Quot.sound
Verif.Geometry.C168_counterexample: propext Classical.choice Quot.sound
Verif.Stream.Debounce.C169_debounce_after: propext Classical.choice Quot.sound
Verif.Stream.Debounce.C169_debounce_apart: propext Classical.choice Quot.sound
Verif.Stream.Debounce.C169_debounce_within_partial: propext Quot.sound
Verif.Stream.Debounce.C169_counterexample: propext
Verif.Stream.Sample.C169_sample_apart: propext Quot.sound
Verif.Stream.Sample.C169_sample_within_partial: propext Classical.choice Quot.sound
Verif.ListModel.FilteredReplace.C170_polite_partial: propext Classical.choice Quot.sound
Verif.ListModel.FilteredReplace.C170_removed: propext Classical.choice Quot.sound
Verif.ListModel.FilteredReplace.C170_inserted: propext Classical.choice Quot.sound
Verif.ListModel.FilteredReplace.C170_stuck: propext Classical.choice Quot.sound
Verif.ListModel.FilteredReplace.C170_iff_partial: propext Classical.choice Quot.sound
Verif.ListModel.FilteredReplace.C170_counterexample: propext Classical.choice Quot.sound
Verif.Persist.RecorderClose.C171_live: propext Classical.choice Quot.sound
Verif.Persist.RecorderClose.C171_closed: propext Classical.choice Quot.sound
Verif.Persist.RecorderClose.C171_close_ok: propext Classical.choice Quot.sound
Verif.Persist.RecorderClose.C171_property: propext Classical.choice Quot.sound
Verif.Persist.RecorderTree.C172_same_partial: propext Quot.sound
Verif.Persist.RecorderTree.C172_property_partial: propext Quot.sound
Verif.Persist.RecorderTree.C172_iff_partial: propext Quot.sound
Verif.Persist.RecorderTree.C172_counterexample: propext
Verif.Stream.CombineRaising.C173_first: propext Classical.choice Quot.sound
Verif.Stream.CombineRaising.C173_iff_partial: propext Classical.choice Quot.sound
Verif.Stream.CombineRaising.C173_recovers: propext Quot.sound
Verif.Stream.CombineRaising.C173_right_partial: propext Quot.sound
Verif.Stream.CombineRaising.C173_counterexample: propext
Verif.ListModel.FlattenedReplace.C174_polite_partial: propext Classical.choice Quot.sound
Verif.ListModel.FlattenedReplace.C174_inserted: propext Classical.choice Quot.sound
Verif.ListModel.FlattenedReplace.C174_removed: propext Classical.choice Quot.sound
Verif.ListModel.FlattenedReplace.C174_first: propext Classical.choice Quot.sound
Verif.ListModel.FlattenedReplace.C174_child_inserted: propext Classical.choice Quot.sound
Verif.ListModel.FlattenedReplace.C174_child_removed: propext Classical.choice Quot.sound
Verif.ListModel.FlattenedReplace.C174_stuck: propext Classical.choice Quot.sound
Verif.ListModel.FlattenedReplace.C174_counterexample: propext Classical.choice Quot.sound
Verif.Converter.C175_monotone: propext Classical.choice Quot.sound
Verif.Converter.C175_back_monotone: propext Classical.choice Quot.sound
Verif.Converter.C175_min: propext Classical.choice Quot.sound
Verif.Converter.C175_max_partial: propext Classical.choice Quot.sound
Verif.Converter.C175_range: propext Classical.choice Quot.sound
Verif.Converter.C175_reached_iff: propext Classical.choice Quot.sound
Verif.Converter.C175_reached_partial: propext Classical.choice Quot.sound
Verif.Converter.C175_power_of_two: propext Classical.choice Quot.sound
Verif.Converter.C175_round_trip_partial: propext Classical.choice Quot.sound
Verif.Converter.C175_step: propext Classical.choice Quot.sound
Verif.Converter.C175_top_partial: propext Classical.choice Quot.sound
Verif.Converter.C175_counterexample_reached: propext Classical.choice Quot.sound
Verif.Converter.C175_counterexample_top: propext Classical.choice Quot.sound
Verif.Converter.C175_counterexample_far: propext Classical.choice Quot.sound
Verif.Geometry.C176_number_raises_iff: propext Classical.choice Quot.sound
Verif.Geometry.C176_close_raises: propext Classical.choice Quot.sound
Verif.Geometry.C176_counterexample_small: propext Classical.choice Quot.sound
Verif.Geometry.C176_number_odd: propext Classical.choice Quot.sound
Verif.Geometry.C176_wide: propext Classical.choice Quot.sound
Verif.Geometry.C176_counterexample_wide: propext Classical.choice Quot.sound
Verif.Geometry.C176_counterexample_large: propext Classical.choice Quot.sound
Verif.Geometry.C176_agree_partial: propext Classical.choice Quot.sound
Verif.Geometry.C176_finite_partial: propext Classical.choice Quot.sound
Verif.ListModel.C177_replayable: propext Classical.choice Quot.sound
Verif.ListModel.C177_complete: propext Classical.choice Quot.sound
Verif.ListModel.C177_ordered_partial: propext Classical.choice Quot.sound
Verif.ListModel.C177_incomparable_first: propext Classical.choice Quot.sound
Verif.ListModel.C177_incomparable_moves: propext Classical.choice Quot.sound
Verif.ListModel.C177_nan_first: propext Classical.choice Quot.sound
Verif.ListModel.C177_counterexample: propext Classical.choice Quot.sound
Verif.ListModel.C177_counterexample_filtered: propext Classical.choice Quot.sound
Verif.Stream.PropReentrant.C178_follows_partial: propext Classical.choice Quot.sound
Verif.Stream.PropReentrant.C178_told: propext Classical.choice Quot.sound
Verif.Stream.PropReentrant.C178_hears: propext Quot.sound
Verif.Stream.PropReentrant.C178_counterexample_source: -
Verif.Stream.PropReentrant.C178_counterexample_raises: -
Verif.Persist.Callbacks.C179_properties: propext Classical.choice Quot.sound
Verif.Persist.Callbacks.C179_items: propext Classical.choice Quot.sound
Verif.Persist.Callbacks.C179_relationships_partial: propext Classical.choice Quot.sound
Verif.Persist.Callbacks.C179_quiet_partial: propext Classical.choice Quot.sound
Verif.Persist.Callbacks.C179_cascade_iff: propext Classical.choice Quot.sound
Verif.Persist.Callbacks.C179_counterexample_cascade: propext
Verif.Persist.Callbacks.C179_counterexample_behind: propext
Verif.Persist.Callbacks.C179_counterexample_index: propext
Verif.Persist.Callbacks.C179_counterexample_raises: propext
Verif.Persist.Callbacks.C179_counterexample_nested: propext
Verif.Persist.Subscribers.C180_sequential_partial: propext Classical.choice Quot.sound
Verif.Persist.Subscribers.C180_ranked_partial: propext Classical.choice Quot.sound
Verif.Persist.Subscribers.C180_counterexample_twice: propext
Verif.Persist.Subscribers.C180_counterexample_lost: propext
Verif.Persist.Subscribers.C180_counterexample_raises: propext
Verif.Persist.Subscribers.C180_counterexample_unregister: propext
Verif.Persist.Subscribers.C180_counterexample_forever: propext Quot.sound
Verif.ListModel.MappedReentrant.C181_items: propext Classical.choice Quot.sound
Verif.ListModel.MappedReentrant.C181_selection_partial: propext Classical.choice Quot.sound
Verif.ListModel.MappedReentrant.C181_reads_partial: propext Classical.choice Quot.sound
Verif.ListModel.MappedReentrant.C181_nested_iff: propext Classical.choice Quot.sound
Verif.ListModel.MappedReentrant.C181_told: propext Classical.choice Quot.sound
Verif.ListModel.MappedReentrant.C181_raises: propext Classical.choice Quot.sound
Verif.ListModel.MappedReentrant.C181_counterexample_reject: propext Classical.choice Quot.sound
Verif.ListModel.MappedReentrant.C181_counterexample_behind: propext Classical.choice Quot.sound
Verif.ListModel.FilteredReentrant.C182_items_partial: propext Classical.choice Quot.sound
Verif.ListModel.FilteredReentrant.C182_source: propext Classical.choice Quot.sound
Verif.ListModel.FilteredReentrant.C182_repair: propext Classical.choice Quot.sound
Verif.ListModel.FilteredReentrant.C182_reads_partial: propext Classical.choice Quot.sound
Verif.ListModel.FilteredReentrant.C182_told: propext Classical.choice Quot.sound
Verif.ListModel.FilteredReentrant.C182_raises: propext Classical.choice Quot.sound
Verif.ListModel.FilteredReentrant.C182_counterexample_ghost: propext Classical.choice Quot.sound
Verif.ListModel.FilteredReentrant.C182_counterexample_twice: propext Classical.choice Quot.sound
Verif.ListModel.FilteredReentrant.C182_counterexample_raises: propext Classical.choice Quot.sound
Verif.ListModel.FlattenedReentrant.C183_items_partial: propext Classical.choice Quot.sound
Verif.ListModel.FlattenedReentrant.C183_apart: propext Classical.choice Quot.sound
Verif.ListModel.FlattenedReentrant.C183_raises: propext Quot.sound
Verif.ListModel.FlattenedReentrant.C183_told: propext Quot.sound
Verif.ListModel.FlattenedReentrant.C183_counterexample_ghost: propext
Verif.ListModel.FlattenedReentrant.C183_counterexample_again: propext
Verif.ListModel.FlattenedReentrant.C183_counterexample_twice: propext
Verif.ListModel.FlattenedReentrant.C183_counterexample_order: propext
Verif.Stream.NetReentrant.C184_streams_partial: propext Classical.choice Quot.sound
Verif.Stream.NetReentrant.C184_last: propext Classical.choice Quot.sound
Verif.Stream.NetReentrant.C184_passive: propext Classical.choice Quot.sound
Verif.Stream.NetReentrant.C184_counterexample: propext
Verif.Stream.NetReentrant.C184_counterexample_raises: propext
Verif.ListModel.Blocks.C185_items_partial: propext Classical.choice Quot.sound
Verif.ListModel.Blocks.C185_raises: propext Classical.choice Quot.sound
Verif.ListModel.Blocks.C185_batched: propext Quot.sound
Verif.ListModel.Blocks.C185_source: propext Classical.choice Quot.sound
Verif.ListModel.Blocks.C185_told: propext Classical.choice Quot.sound
Verif.ListModel.Blocks.C185_counterexample: propext Quot.sound
Verif.ListModel.Blocks.C185_counterexample_twice: propext Quot.sound
Verif.Structured.Reent.C186_contents: propext Classical.choice Quot.sound
Verif.Structured.Reent.C186_told: propext Classical.choice Quot.sound
Verif.Structured.Reent.C186_changes: propext Classical.choice Quot.sound
Verif.Structured.Reent.C186_raises: propext Classical.choice Quot.sound
Verif.Structured.Reent.C186_counterexample: propext
Verif.Stream.ConcatReentrant.C187_value_partial: propext Quot.sound
Verif.Stream.ConcatReentrant.C187_recovers: propext Quot.sound
Verif.Stream.ConcatReentrant.C187_listeners: propext Quot.sound
Verif.Stream.ConcatReentrant.C187_quiet: propext Quot.sound
Verif.Stream.ConcatReentrant.C187_counterexample: propext
Verif.Stream.ConcatReentrant.C187_counterexample_value: propext
Verif.Stream.ConcatReentrant.C187_counterexample_raises: propext
Verif.Stream.ConcatReentrant.C187_counterexample_function: propext
Verif.Registry.Single.C188_one_partial: propext Quot.sound
Verif.Registry.Single.C188_first: propext Classical.choice Quot.sound
Verif.Registry.Single.C188_sequential: propext Classical.choice Quot.sound
Verif.Registry.Single.C188_managers: propext Classical.choice Quot.sound
Verif.Registry.Single.C188_counterexample: -
Verif.Binding.Targets.C189_targets_partial: propext Quot.sound
Verif.Binding.Targets.C189_changed_partial: propext Quot.sound
Verif.Binding.Targets.C189_all: propext Quot.sound
Verif.Binding.Targets.C189_raises: propext Quot.sound
Verif.Binding.Targets.C189_counterexample: -
Verif.Stream.Giving.C190_references: propext Classical.choice Quot.sound
Verif.Stream.Giving.C190_closed: propext Classical.choice Quot.sound
Verif.Stream.Giving.C190_counterexample: propext
Verif.Stream.Giving.C190_counterexample_none: propext
Verif.Persist.RecorderReentrant.C191_replay_partial: propext Classical.choice Quot.sound
Verif.Persist.RecorderReentrant.C191_counterexample: propext
Verif.Persist.RecorderReentrant.C191_counterexample_raises: propext
Verif.ListModel.Blocks.C192_blocks_partial: propext Classical.choice Quot.sound
Verif.ListModel.Blocks.C192_counterexample_before: propext Quot.sound
Verif.ListModel.Blocks.C192_counterexample_begin: propext Quot.sound
Verif.ListModel.Blocks.C192_counterexample_raises: propext Quot.sound
Verif.ListModel.FilteredReentrant.C192_changes_partial: propext Classical.choice Quot.sound
Verif.ListModel.FilteredReentrant.C192_counterexample_changes: propext Classical.choice Quot.sound
Verif.ListModel.FlattenedReentrant.C192_flattened_partial: propext Classical.choice Quot.sound
Verif.ListModel.FlattenedReentrant.C192_counterexample_flattened: propext
Verif.ListModel.MappedReentrant.C192_mapped_partial: propext Classical.choice Quot.sound
Verif.ListModel.MappedReentrant.C192_counterexample_mapped: propext Classical.choice Quot.sound
Verif.ListModel.MappedReentrant.C192_counterexample_mapped_raises: propext Classical.choice Quot.sound
Verif.Geometry.C193_text: propext Quot.sound
Verif.Binding.CloseThreads.C194_calls_partial: propext Classical.choice Quot.sound
Verif.Binding.CloseThreads.C194_counterexample_update: propext
Verif.Binding.CloseThreads.C194_counterexample_get: propext
Verif.Binding.CloseThreads.C194_counterexample_notify: propext
Verif.Binding.CloseThreads.C194_counterexample_shown: propext
Verif.ListModel.MappedContainers.C195_containers_partial: propext Classical.choice Quot.sound
Verif.ListModel.MappedContainers.C195_counterexample_late: propext
Verif.ListModel.MappedContainers.C195_counterexample_raises: propext
Verif.ListModel.MappedContainers.C195_counterexample_twice: propext
Verif.ListModel.SortThreads.C196_sorted_partial: propext Classical.choice Quot.sound
Verif.ListModel.SortThreads.C196_counterexample_order: propext
Verif.Persist.Registered.C197_replaced_partial: propext Quot.sound
Verif.Persist.Registered.C197_raises_partial: propext Quot.sound
Verif.Persist.Registered.C197_registered_partial: propext Quot.sound
Verif.Persist.Registered.C197_insert_iff: propext
Verif.Persist.Registered.C197_counterexample_replaced: propext
Verif.Persist.Registered.C197_counterexample_back: propext
Verif.Persist.Registered.C197_counterexample_half: propext
Verif.Stream.FnReentrant.C198_functions_partial: propext Classical.choice Quot.sound
Verif.Stream.FnReentrant.C198_ranked: propext Classical.choice Quot.sound
Verif.Stream.FnReentrant.C198_counterexample_map: propext
Verif.Stream.FnReentrant.C198_counterexample_combine: propext
Verif.Stream.FalseSource.C199_fires: propext
Verif.Stream.FalseSource.C199_true_partial: propext Quot.sound
Verif.Stream.FalseSource.C199_false: propext Quot.sound
Verif.Stream.FalseSource.C199_counterexample: propext
Verif.Stream.FalseSource.C199_counterexample_made: -
Verif.Structured.AnyValue.C200_raises_iff: propext Classical.choice Quot.sound
Verif.Structured.AnyValue.C200_record: propext Classical.choice Quot.sound
Verif.Structured.AnyValue.C200_array: propext Classical.choice Quot.sound
Verif.Structured.AnyValue.C200_unchanged_partial: propext Quot.sound
Verif.Structured.AnyValue.C200_counterexample: propext Classical.choice Quot.sound
Verif.Structured.AnyValue.C200_counterexample_array: propext Quot.sound
Verif.Structured.AnyValue.C200_counterexample_text: propext Quot.sound
Verif.Structured.AnyValue.C200_counterexample_list: propext Classical.choice Quot.sound
Verif.ListModel.Containers.C201_filtered_partial: propext Classical.choice Quot.sound
Verif.ListModel.Containers.C201_counterexample_late: propext
Verif.ListModel.Containers.C201_counterexample_raises: propext
Verif.ListModel.Containers.C201_counterexample_twice: propext
Verif.ListModel.Containers.C201_flattened_partial: propext Classical.choice Quot.sound
Verif.ListModel.Containers.C201_counterexample_flattened_late: propext
Verif.ListModel.Containers.C201_counterexample_flattened_raises: propext
Verif.ListModel.Containers.C201_counterexample_flattened_twice: propext
Verif.Persist.Redefine.C202_values: propext Quot.sound
Verif.Persist.Redefine.C202_storage: propext Quot.sound
Verif.Persist.Redefine.C202_dict: propext Quot.sound
Verif.Persist.Redefine.C202_assigned_partial: propext Quot.sound
Verif.Persist.Redefine.C202_defined: propext Quot.sound
Verif.Persist.Redefine.C202_undefined: propext Quot.sound
Verif.Persist.Redefine.C202_counterexample_default: -
Verif.Persist.Redefine.C202_counterexample_again: -
Verif.Persist.Redefine.C202_counterexample_undefined: -
Verif.Binding.ListClose.C203_source: propext Quot.sound
Verif.Binding.ListClose.C203_open: propext Quot.sound
Verif.Binding.ListClose.C203_told: propext Quot.sound
Verif.Binding.ListClose.C203_after: propext Quot.sound
Verif.Binding.ListClose.C203_target_partial: propext Classical.choice Quot.sound
Verif.Binding.ListClose.C203_counterexample_other: propext
Verif.Binding.ListClose.C203_counterexample_index: propext
Verif.Binding.ListClose.C203_counterexample_late: propext
Verif.Binding.UpdateClose.C204_calls_partial: propext Quot.sound
Verif.Binding.UpdateClose.C204_objects: propext
Verif.Binding.UpdateClose.C204_changes: propext Quot.sound
Verif.Binding.UpdateClose.C204_counterexample_half: propext
Verif.Binding.UpdateClose.C204_counterexample_gone: propext
Verif.Persist.RedefineItems.C205_stored: propext Classical.choice Quot.sound
Verif.Persist.RedefineItems.C205_right_iff_partial: propext Classical.choice Quot.sound
Verif.Persist.RedefineItems.C205_left: propext Classical.choice Quot.sound
Verif.Persist.RedefineItems.C205_undefined: propext
Verif.Persist.RedefineItems.C205_item: propext Quot.sound
Verif.Persist.RedefineItems.C205_item_undefined: propext
Verif.Persist.RedefineItems.C205_counterexample: propext
Verif.Persist.RedefineItems.C205_counterexample_index: propext
Verif.Structured.AnyValue.C206_raises_iff: propext Classical.choice Quot.sound
Verif.Structured.AnyValue.C206_item_raises_iff: propext Classical.choice Quot.sound
Verif.Structured.AnyValue.C206_record: propext Classical.choice Quot.sound
Verif.Structured.AnyValue.C206_array: propext Quot.sound
Verif.Structured.AnyValue.C206_scalar: propext
Verif.Structured.AnyValue.C206_dict_partial: propext
Verif.Structured.AnyValue.C206_counterexample: propext Quot.sound
Verif.Structured.AnyValue.C206_counterexample_text: propext
Verif.Structured.AnyValue.C207_restored_iff_partial: propext Classical.choice Quot.sound
Verif.Structured.AnyValue.C207_self: propext Classical.choice Quot.sound
Verif.Structured.AnyValue.C207_reached_partial: propext Classical.choice Quot.sound
Verif.Structured.AnyValue.C207_values_iff: propext Quot.sound
Verif.Structured.AnyValue.C207_counterexample: propext Quot.sound
Verif.Structured.AnyValue.C207_counterexample_scalar: propext
Verif.Geometry.EqAny.C208_point_partial: propext Classical.choice Quot.sound
Verif.Geometry.EqAny.C208_size_partial: propext Classical.choice Quot.sound
Verif.Geometry.EqAny.C208_rect_partial: propext Classical.choice Quot.sound
Verif.Geometry.EqAny.C208_ne: propext Quot.sound
Verif.Geometry.EqAny.C208_equivalence: propext Classical.choice Quot.sound
Verif.Geometry.EqAny.C208_same_class: propext Quot.sound
Verif.Geometry.EqAny.C208_counterexample: propext
Verif.Geometry.EqAny.C208_counterexample_raises: propext
