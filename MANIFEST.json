{
 "claims": [
  {
   "property": "C01",
   "status": "proved",
   "theorems": [
    "Verif.Policies.Props.C01_latestN",
    "Verif.Policies.Props.C01_latestN_none",
    "Verif.Policies.Props.C01_preserveAll",
    "Verif.Policies.Props.C01_negative_n_fails"
   ],
   "note": "Proved for n=None and n>=0, for every list of checkpoints. The theorem ending in _fails exhibits that a negative n (accepted by the dataclass) keeps the wrong ones."
  },
  {
   "property": "C02",
   "status": "proved",
   "theorems": [
    "Verif.Policies.Props.C02_everyNSeconds",
    "Verif.Policies.Props.C02_everyNSteps",
    "Verif.Policies.Props.C02_spacing"
   ],
   "note": ""
  },
  {
   "property": "C03",
   "status": "partial",
   "theorems": [
    "Verif.Policies.Props.C03_exact",
    "Verif.Policies.Props.C03_exact_bounded_partial",
    "Verif.Policies.Props.C03_max_to_keep_bound_partial",
    "Verif.Policies.Props.C03_rejects",
    "Verif.Policies.Props.C03_max_to_keep_zero_fails",
    "Verif.Policies.Props.C03_max_to_keep_zero_is_unbounded"
   ],
   "note": "Exact characterisation proved without max_to_keep and, as _partial, with max_to_keep>0; max_to_keep=0 is shown to be ignored (finding)."
  },
  {
   "property": "C04",
   "status": "partial",
   "theorems": [
    "Verif.Policies.Props.C04_last_kept",
    "Verif.Policies.Props.C04_every_target_served",
    "Verif.Policies.Props.C04_kept_is_closest",
    "Verif.Policies.Props.C04_bounded_partial",
    "Verif.Policies.Props.C04_max_to_keep_zero_is_unbounded"
   ],
   "note": "Bounded variant proved for max_to_keep>0; max_to_keep=0 is shown to be ignored (finding)."
  },
  {
   "property": "C05",
   "status": "partial",
   "theorems": [
    "Verif.Policies.Props.C05_kept_are_best",
    "Verif.Policies.Props.C05_count",
    "Verif.Policies.Props.C05_without_metrics_partial",
    "Verif.Policies.Props.C05_few",
    "Verif.Policies.Props.C05_n_zero_drops_metricless_fails"
   ],
   "note": "Order by metric, count and the small case proved; metric-less checkpoints are dropped when n=0 (finding)."
  },
  {
   "property": "C06",
   "status": "proved",
   "theorems": [
    "Verif.Policies.Props.C06_any_is_union",
    "Verif.Policies.Props.C06_any_monotone",
    "Verif.Policies.Props.C06_no_children_fails",
    "Verif.Policies.Props.C06_customSteps"
   ],
   "note": "Union law proved for a non-empty list of children; with no children the code raises/returns no flags (finding)."
  },
  {
   "property": "C07",
   "status": "proved",
   "theorems": [
    "Verif.Policies.Props.C07_latestDuration",
    "Verif.Policies.Props.C07_recent_always_kept",
    "Verif.Policies.Props.C07_unordered_fails"
   ],
   "note": "Proved for checkpoint lists ordered by time; with out-of-order timestamps the claim is false (finding)."
  },
  {
   "property": "C08",
   "status": "proved",
   "theorems": [
    "Verif.Manager.Props.C08_in_progress_stuck_fails",
    "Verif.SavePolicy.Props.C08_fixedInterval",
    "Verif.SavePolicy.Props.C08_specificSteps",
    "Verif.SavePolicy.Props.C08_initialSave",
    "Verif.SavePolicy.Props.C08_preemption",
    "Verif.SavePolicy.Props.C08_any",
    "Verif.SavePolicy.Props.C08_any_order",
    "Verif.SavePolicy.Props.C08_continuous",
    "Verif.SavePolicy.Props.C08_continuous_spacing",
    "Verif.SavePolicy.Props.C08_default",
    "Verif.SavePolicy.Props.C08_default_zero_interval_raises",
    "Verif.SavePolicy.Props.C08_continuous_hosts_agree"
   ],
   "note": "Each policy is characterised exactly; spacing of continuous checkpointing and agreement of hosts over all schedules. Findings: interval 0 raises; a forced save of an existing step leaves the in-progress flag set, so continuous checkpointing stops."
  },
  {
   "property": "C09",
   "status": "proved",
   "theorems": [
    "Verif.Manager.Props.C09_refused",
    "Verif.Manager.Props.C09_all_steps_increasing",
    "Verif.Manager.Props.C09_latest_is_max",
    "Verif.Manager.Props.C09_accepted_is_latest",
    "Verif.Manager.Props.C09_forced_save_fails",
    "Verif.Manager.Props.C09_policy_drops_newest_fails"
   ],
   "note": "For every history without force. Findings: a forced save of a smaller step or a policy that drops the newest step breaks latest_step()=max."
  },
  {
   "property": "C10",
   "status": "proved",
   "theorems": [
    "Verif.Manager.Props.C10_view_equals_storage",
    "Verif.Manager.Props.C10_view_is_what_reload_gives",
    "Verif.Manager.Props.C10_reload",
    "Verif.Manager.Props.C10_failed_deletion_fails"
   ],
   "note": "For every history whose deletions succeed; the failed-deletion case is refuted by a witness."
  },
  {
   "property": "C11",
   "status": "proved",
   "theorems": [
    "Verif.Manager.Props.C11_exact",
    "Verif.Manager.Props.C11_async_exact",
    "Verif.Manager.Props.C11_max_to_keep"
   ],
   "note": "Exact retained set after a synchronous and after a finalized asynchronous save; max_to_keep bound."
  },
  {
   "property": "C12",
   "status": "partial",
   "theorems": [
    "Verif.Manager.Props.C12_loss_only_after_commit_partial",
    "Verif.Manager.Props.C12_failed_save_keeps_storage_partial",
    "Verif.Manager.Props.C12_polled_error_loses_data_fails",
    "Verif.Manager.Props.C12_cache_forgets_committed_fails"
   ],
   "note": "Proved for histories in which no one else consumes the background exception (check_for_errors / restore) before the finalize thread; the unrestricted claim is refuted by C12_polled_error_loses_data_fails."
  },
  {
   "property": "C13",
   "status": "proved",
   "theorems": [
    "Verif.Manager.Props.C13_reported_once_per_thread",
    "Verif.Manager.Props.C13_next_save_raises"
   ],
   "note": ""
  },
  {
   "property": "C14",
   "status": "proved",
   "theorems": [
    "Verif.Manager.Props.C14_none_iff",
    "Verif.Manager.Props.C14_best_is_optimal",
    "Verif.Manager.Props.C14_untracked",
    "Verif.Manager.Props.C14_metrics_durable",
    "Verif.Manager.Props.C14_prevent_write_metrics_fails"
   ],
   "note": "None iff no metrics; otherwise optimal, ties to the last listed."
  },
  {
   "property": "C15",
   "status": "partial",
   "theorems": [
    "Verif.Manager.Props.C15_read_only_partial",
    "Verif.Manager.Props.C15_forced_save_writes_fails"
   ],
   "note": "Proved for calls without force=True; refuted for force=True by a witness."
  },
  {
   "property": "C16",
   "status": "partial",
   "theorems": [
    "Verif.NameFormat.Props.C16_round_trip",
    "Verif.NameFormat.Props.C16_recognised_iff",
    "Verif.NameFormat.Props.C16_injective",
    "Verif.NameFormat.Props.C16_negative_step_fails",
    "Verif.NameFormat.Props.C16_metacharacter_prefix_fails",
    "Verif.NameFormat.Props.C16_foreign_names_fails",
    "Verif.NameFormat.Props.C16_legacy_round_trip",
    "Verif.NameFormat.Props.C16_legacy_empty_prefix_fails",
    "Verif.NameFormat.Props.C16_tmp_step"
   ],
   "note": "Round trip, canonicity and injectivity for every step >= 0, width and metacharacter-free prefix; negative steps, prefixes with regex metacharacters and non-ASCII digits / trailing newline are refuted by witnesses."
  },
  {
   "property": "C17",
   "status": "proved",
   "theorems": [
    "Verif.NameFormat.Props.C17_find_all",
    "Verif.NameFormat.Props.C17_find_all_nodup",
    "Verif.NameFormat.Props.C17_find_step",
    "Verif.NameFormat.Props.C17_broadcast",
    "Verif.NameFormat.Props.C17_composite_find_all",
    "Verif.NameFormat.Props.C17_composite_find_step",
    "Verif.NameFormat.Props.C17_latest",
    "Verif.NameFormat.Props.C17_negative_step_fails",
    "Verif.Store.C17_on_disk_rename",
    "Verif.Store.C17_on_disk_commit"
   ],
   "note": "For listings with plain ASCII names and metacharacter-free prefixes; negative steps are a finding."
  },
  {
   "property": "C18",
   "status": "proved",
   "theorems": [
    "Verif.Store.C18_crash_safe",
    "Verif.Store.C18_completes"
   ],
   "note": "Every crash point of a save into a free name, every body of file operations, every prior directory state. Overwriting saves are C20."
  },
  {
   "property": "C19",
   "status": "proved",
   "theorems": [
    "Verif.Store.C19_crash_safe",
    "Verif.Store.C19_completes",
    "Verif.Store.C19_allow_legacy_fails",
    "Verif.Store.C19_discovery_protocol_mismatch_fails"
   ],
   "note": "As C18. Findings: allow_legacy_atomic_rename, and discovery that assumes atomic renames (the v1 training Checkpointer's default name format), make unfinished commit-file saves visible."
  },
  {
   "property": "C20",
   "status": "partial",
   "theorems": [
    "Verif.Store.C20_force_overwrite_fails",
    "Verif.Store.C20_force_torn_version_fails",
    "Verif.Store.C20_others_untouched_partial",
    "Verif.Store.C20_completes_partial"
   ],
   "note": "The claim is false: force first removes the old version, non-atomically (theorems ending in _fails, for every prior state). Proved: all other checkpoints are untouched at every crash point, and an uninterrupted overwrite succeeds."
  },
  {
   "property": "C21",
   "status": "partial",
   "theorems": [
    "Verif.Store.C21_cleanup_rename",
    "Verif.Store.C21_cleanup_commit",
    "Verif.Store.C21_cleanup_crash",
    "Verif.Store.C21_commit_foreign_directory_fails"
   ],
   "note": "Exact effect proved for both protocols, and safety of finalized checkpoints at every crash point and interleaving. With commit files the claim that nothing else is removed is false: any directory without the marker goes (finding)."
  },
  {
   "property": "C22",
   "status": "proved",
   "theorems": [
    "Verif.Store.C22_only_complete_steps",
    "Verif.Store.C22_completed_saves_survive",
    "Verif.Store.C22_restart_recovers"
   ],
   "note": "For all histories of saves, restarts (both may crash anywhere) and completed deletions, both protocols. Excluded: force (C20) and crashes inside a permanent deletion (C24 finding)."
  },
  {
   "property": "C23",
   "status": "proved",
   "theorems": [
    "Verif.Deleter.C23_in_order",
    "Verif.Deleter.C23_close_means_all_done",
    "Verif.Deleter.C23_close_outcome",
    "Verif.Deleter.C23_no_deadlock",
    "Verif.Deleter.C23_terminates",
    "Verif.Deleter.C23_raise_drops_later_requests_fails",
    "Verif.Deleter.C23_negative_step_stops_worker_fails"
   ],
   "note": "All request sequences, outcomes and interleavings; deadlock freedom and termination. Findings: a raising deletion or a negative step number ends the worker and drops the later requests."
  },
  {
   "property": "C24",
   "status": "partial",
   "theorems": [
    "Verif.Store.C24_only_that_step",
    "Verif.Store.C24_removes_partial",
    "Verif.Store.C24_missing",
    "Verif.Store.C24_leftover_shadows_step_fails",
    "Verif.Store.C24_trash_collision_fails",
    "Verif.Store.C24_full_path_fails",
    "Verif.Store.C24_crash_leaves_torn_step_fails",
    "Verif.Store.C24_trash_keeps_contents"
   ],
   "note": "'Only that step' proved for every state and configuration; removal proved when no left-over of an unfinished save to the same name exists. Otherwise false (left-over shadows the step), also with todelete_subdir on a second deletion and for crashes during removal (findings)."
  },
  {
   "property": "C25",
   "status": "proved",
   "theorems": [
    "Verif.Async.C25_serialized",
    "Verif.Async.C25_wait_accounts_for_every_save",
    "Verif.Async.C25_wait_ok_means_committed",
    "Verif.Async.C25_errors_once",
    "Verif.Async.C25_cancel_swallows_error_fails",
    "Verif.Async.C25_cancelled_error_dropped_fails",
    "Verif.Async.C25_save_after_failure_not_started"
   ],
   "note": "Serialization for every history, cancellations included; commit and error accounting for every history without cancellation (the property's own proviso). Findings: cancel after a failure, and a CancelledError nobody asked for, both lose the error; an error already raised by check_for_errors makes the next wait return normally."
  },
  {
   "property": "C26",
   "status": "proved",
   "theorems": [
    "Verif.Async.Commit.C26_commit_after_all_futures",
    "Verif.Async.Commit.C26_failed_future_never_commits",
    "Verif.Async.Commit.C26_done_means_committed",
    "Verif.Async.Commit.C26_publish_after_finalize",
    "Verif.Async.Commit.C26_no_deadlock",
    "Verif.Async.Commit.C26_post_finalization_runs_before_commit_fails",
    "Verif.Async.Commit.C26_error_after_commit_fails"
   ],
   "note": "Any number of hosts, futures and any interleaving, with both barriers; also progress (no deadlock). Findings: the post finalization callback runs before the checkpoint is visible; an error can be reported after the checkpoint became visible."
  },
  {
   "property": "C27",
   "status": "proved",
   "theorems": [
    "Verif.Futures.KV.C27_contract_add",
    "Verif.Futures.KV.C27_set_signal",
    "Verif.Futures.KV.C27_remove_all",
    "Verif.Futures.KV.C27_contract_history",
    "Verif.Futures.KV.C27_contract_removed",
    "Verif.Futures.Signals.C27_body_after_signals",
    "Verif.Futures.Signals.C27_body_after_contract",
    "Verif.Futures.Signals.C27_signal_after_body",
    "Verif.Futures.Signals.C27_result_ok",
    "Verif.Futures.Signals.C27_bodies_in_order",
    "Verif.Futures.Signals.C27_cancelled_future_still_signals_fails",
    "Verif.Futures.Signals.C27_cancelled_early_never_signals_fails"
   ],
   "note": "All interleavings of any number of futures; string keys of the contract proved to behave like (operation, signal) pairs. Signals are sent only after success unless the future was cancelled: the cancelled case is refuted by a witness (finding)."
  },
  {
   "property": "C28",
   "status": "proved",
   "theorems": [
    "Verif.Futures.Chained.C28_callback",
    "Verif.Futures.Chained.C28_success_sound",
    "Verif.Futures.Chained.C28_success_complete",
    "Verif.Futures.Chained.C28_no_timeout",
    "Verif.Futures.Chained.C28_success_exact",
    "Verif.Futures.Chained.C28_bounded_wait",
    "Verif.Futures.Chained.C28_error",
    "Verif.Futures.Chained.C28_zero_timeout_ignores_completed_fails"
   ],
   "note": "Soundness and completeness with arbitrary time lost between waits, exact characterisation without; callback, error position, bounded wait. Finding: an expired deadline fails even if everything has completed."
  },
  {
   "property": "C29",
   "status": "partial",
   "theorems": [
    "Verif.Futures.KV.C29_delete",
    "Verif.Futures.KV.C29_set",
    "Verif.Futures.KV.C29_dir_get",
    "Verif.Futures.KV.C29_linearizable",
    "Verif.Futures.KV.C29_never_asleep_while_set",
    "Verif.Futures.KV.C29_get_returns_current_value",
    "Verif.Futures.KV.C29_get_times_out_only_if_absent",
    "Verif.Futures.KV.C29_get_progress",
    "Verif.Futures.KV.C29_set_and_deleted_is_missed_fails",
    "Verif.Futures.KV.C29_delete_without_slash_keeps_children_fails"
   ],
   "note": "Linearizability of all operations, no lost wake-up, values and timeouts of blocking gets are exact with respect to the moment they are decided. The English 'iff set before the deadline' is refuted when the key is deleted again (witness), and 'everything below it' holds only for keys ending in '/' (witness)."
  },
  {
   "property": "C30",
   "status": "proved",
   "theorems": [
    "Verif.Memory.Limits.C30_budget",
    "Verif.Memory.Limits.C30_assertions",
    "Verif.Memory.Limits.C30_release_restores",
    "Verif.Memory.Limits.C30_refused_iff",
    "Verif.Memory.Limits.C30_no_lost_wakeup",
    "Verif.Memory.Limits.C30_progress",
    "Verif.Memory.Limits.C30_all_served",
    "Verif.Memory.Limits.C30_finished_means_served",
    "Verif.Memory.Limits.C30_get_byte_limiter",
    "Verif.Memory.Limits.C30_request_of_exactly_the_limit_refused_fails"
   ],
   "note": "Labelled transition system of any number of tasks, releases and cancellations; the refusal of a request equal to the whole limit is a finding."
  },
  {
   "property": "C31",
   "status": "partial",
   "theorems": [
    "Verif.Memory.Batches.C31_partition",
    "Verif.Memory.Batches.C31_nonempty",
    "Verif.Memory.Batches.C31_total",
    "Verif.Memory.Batches.C31_budget_partial",
    "Verif.Memory.Batches.C31_budget_if_first_everywhere",
    "Verif.Memory.Batches.C31_greedy",
    "Verif.Memory.Batches.C31_first_batch_over_budget_fails"
   ],
   "note": "Partition, greedy maximality and the per-worker budget are proved; the first batch can exceed the budget on workers the first array does not touch, with a proved witness."
  },
  {
   "property": "C32",
   "status": "proved",
   "theorems": [
    "Verif.Memory.Regulator.C32_bounds",
    "Verif.Memory.Regulator.C32_at_least_min",
    "Verif.Memory.Regulator.C32_history_frozen_during_surge",
    "Verif.Memory.Regulator.C32_integral_bounded",
    "Verif.Memory.Regulator.C32_valid_bounds",
    "Verif.Memory.Regulator.C32_ratio_above_one_exceeds_max_fails",
    "Verif.Memory.Regulator.C32_surge_never_raises",
    "Verif.Memory.Regulator.C32_over_total_reduces",
    "Verif.Memory.Regulator.C32_over_total_no_increase",
    "Verif.Memory.Regulator.C32_raised_over_total_after_surge_fails",
    "Verif.Memory.Regulator.C32_restored_after_surge",
    "Verif.Memory.Regulator.C32_steers_to_target",
    "Verif.Memory.Regulator.C32_history_accumulates",
    "Verif.Memory.Regulator.C32_bytes_bounds",
    "Verif.Memory.Regulator.C32_no_profiler_constant"
   ],
   "note": "Bounds over arbitrary ordered arithmetic; steering over rationals. Two documented expectations that do not hold are proved as _fails."
  },
  {
   "property": "C33",
   "status": "proved",
   "theorems": [
    "Verif.Arrays.ChunkShape.C33_terminates",
    "Verif.Arrays.ChunkShape.C33_error_iff",
    "Verif.Arrays.ChunkShape.C33_divides",
    "Verif.Arrays.ChunkShape.C33_fits_target",
    "Verif.Arrays.ChunkShape.C33_shard_axes",
    "Verif.Arrays.ChunkShape.C33_no_target",
    "Verif.Arrays.ChunkShape.C33_not_needlessly_small",
    "Verif.Arrays.ChunkShape.C33_kept_if_fits",
    "Verif.Arrays.ChunkShape.C33_sharded_first",
    "Verif.Arrays.ChunkShape.C33_can_chunk_fragment",
    "Verif.Arrays.ChunkShape.C33_as_large_as_possible_fails"
   ],
   "note": "Termination with an explicit bound, exact error cases, divisibility, target size, shard axes, priority of sharded dimensions, compatibility with chunking. The documented 'otherwise as large as possible' does not hold: proved as _fails."
  },
  {
   "property": "C34",
   "status": "proved",
   "theorems": [
    "Verif.Arrays.C34_partition",
    "Verif.Arrays.C34_chunks_are_pieces",
    "Verif.Arrays.C34_accepted_iff",
    "Verif.Arrays.C34_chunked_fragments_assemble",
    "Verif.Arrays.C34_stepped_fragment_not_partitioned_fails"
   ],
   "note": "For forward fragments with steps 1 (the only ones the rest of the code builds). Stepped fragments, as in the docstring's own example, are not partitioned: proved as _fails."
  },
  {
   "property": "C35",
   "status": "proved",
   "theorems": [
    "Verif.Arrays.C35_assemble",
    "Verif.Arrays.C35_incomplete_rejected",
    "Verif.Arrays.C35_sound",
    "Verif.Arrays.C35_abstract_rejected",
    "Verif.Arrays.C35_misplaced_fragment_accepted_fails"
   ],
   "note": "Any rank, steps and overlaps. A misplaced fragment of the full shape is accepted: proved as _fails."
  },
  {
   "property": "C36",
   "status": "proved",
   "theorems": [
    "Verif.Arrays.C36_offset_translates",
    "Verif.Arrays.C36_intersect_positions",
    "Verif.Arrays.C36_intersect",
    "Verif.Arrays.C36_steps_refused",
    "Verif.Arrays.C36_slice_fragment",
    "Verif.Arrays.C36_slice_commutes"
   ],
   "note": "For steps 1 (others are refused, proved)."
  },
  {
   "property": "C37",
   "status": "proved",
   "theorems": [
    "Verif.Arrays.Replicas.C37_every_element_written_once",
    "Verif.Arrays.Replicas.C37_assembles",
    "Verif.Arrays.Replicas.C37_same_local_shape",
    "Verif.Arrays.Replicas.C37_nbytes",
    "Verif.Arrays.Replicas.C37_thresholds",
    "Verif.Arrays.Replicas.C37_pinned_whole",
    "Verif.Arrays.Replicas.C37_pinned_cut",
    "Verif.Arrays.Replicas.C37_parallel_needs_replica_id",
    "Verif.Arrays.Replicas.C37_too_large_replica_id_writes_nothing_fails",
    "Verif.Arrays.Replicas.C37_local_checkpoint_omits_parts_fails",
    "Verif.Arrays.Replicas.C37_local_checkpoint_same_replica"
   ],
   "note": "Every element of a distributed array is written exactly once over all processes, single-replica or replica-parallel, and reassembles to the array; local shapes agree; thresholds and byte counts. Findings: a replica id >= number of replicas silently writes nothing; local checkpointing omits parts held only under another replica id."
  },
  {
   "property": "C38",
   "status": "proved",
   "theorems": [
    "Verif.Arrays.Sharding.C38_valid",
    "Verif.Arrays.Sharding.C38_small_not_partitioned",
    "Verif.Arrays.Sharding.C38_fully_partitioned",
    "Verif.Arrays.Sharding.C38_not_maximal_fails",
    "Verif.Arrays.Sharding.C38_subset_of_devices_not_partitioned_fails"
   ],
   "note": "Validity of the constructed mesh and partition spec, full partition when the first visited dimension is divisible. Findings: greedy rule is not maximal; with a device subset the size test uses the count of all devices."
  },
  {
   "property": "C39",
   "status": "partial",
   "theorems": [
    "Verif.Arrays.Slices.C39_resolve_same",
    "Verif.Arrays.Slices.C39_resolve_idempotent",
    "Verif.Arrays.Slices.C39_resolve_bounds",
    "Verif.Arrays.Slices.C39_backward_slice_resolves_to_nothing_fails",
    "Verif.Arrays.Slices.C39_minus_one_resolves_to_nothing_fails",
    "Verif.Arrays.Slices.C39_too_long_index_truncated_fails",
    "Verif.Arrays.Slices.C39_dissolve_same",
    "Verif.Arrays.Slices.C39_resolve_dissolve",
    "Verif.Arrays.Slices.C39_dissolve_minimal",
    "Verif.Arrays.Slices.C39_dissolve_backward_fails",
    "Verif.Arrays.Slices.C39_normalize_same",
    "Verif.Arrays.Slices.C39_slice_shape",
    "Verif.Arrays.Slices.C39_slice_shape_negative_fails",
    "Verif.Arrays.Slices.C39_slice_shape_backward_fails",
    "Verif.Arrays.Slices.C39_hashable_roundtrip",
    "Verif.Arrays.Slices.C39_hashable_same_selection"
   ],
   "note": "Proved for forward slices and non-negative integers; backward slices, the integer -1 and too long indices are proved to go wrong."
  },
  {
   "property": "C40",
   "status": "proved",
   "theorems": [
    "Verif.Trees.C40_flat_entries",
    "Verif.Trees.C40_round_trip",
    "Verif.Trees.C40_round_trip_prunes",
    "Verif.Trees.C40_round_trip_sep",
    "Verif.Trees.C40_long_separator_fails",
    "Verif.Trees.C40_leaf_with_separator_fails",
    "Verif.Trees.C40_separator_in_key_fails",
    "Verif.Trees.C40_target",
    "Verif.Trees.C40_target_round_trip",
    "Verif.Trees.C40_int_and_str_keys_fail",
    "Verif.Trees.C40_from_flat_exact"
   ],
   "note": "Entries, round trips (kept/pruned empty nodes, separator, target) for every tree; findings: multi-character separator, separator inside a key, bare leaf with separator, int/str keys."
  },
  {
   "property": "C41",
   "status": "proved",
   "theorems": [
    "Verif.Trees.C41_serialize",
    "Verif.Trees.C41_serialize_full",
    "Verif.Trees.C41_empty_first_element_fails",
    "Verif.Trees.C41_int_and_str_keys_fail",
    "Verif.Trees.C41_round_trip",
    "Verif.Trees.C41_round_trip_full",
    "Verif.Trees.C41_dicts_round_trip"
   ],
   "note": "serialize = plain form; round trip on the original as target, for every tree with JAX-shaped keys; findings: leafless first list element raises AssertionError, int/str keys collide."
  },
  {
   "property": "C42",
   "status": "proved",
   "theorems": [
    "Verif.Trees.C42_param_names_unique",
    "Verif.Trees.C42_param_name_splits",
    "Verif.Trees.C42_dot_collision_fails"
   ],
   "note": "Names are unique and split back to the path when sibling names differ and contain no dot; finding: dots collide."
  },
  {
   "property": "C43",
   "status": "proved",
   "theorems": [
    "Verif.Trees.C43_none_iff",
    "Verif.Trees.C43_sound",
    "Verif.Trees.C43_complete",
    "Verif.Trees.C43_refl",
    "Verif.Trees.C43_symm",
    "Verif.Trees.C43_custom_extra_child_fails"
   ],
   "note": "tree_difference on trees of dictionaries, lists, tuples, named tuples, None and custom nodes with distinct keys: None iff equal structure and equal leaves; each reported difference is a real difference at its path; every difference is reported unless below a custom node only the right tree has the child (C43_custom_extra_child_fails)."
  },
  {
   "property": "C44",
   "status": "proved",
   "theorems": [
    "Verif.Trees.C44_kept",
    "Verif.Trees.C44_same_paths",
    "Verif.Trees.C44_removed",
    "Verif.Trees.C44_strict",
    "Verif.Trees.C44_missing",
    "Verif.Trees.C44_fits",
    "Verif.Trees.C44_fits_weak",
    "Verif.Trees.C44_named_by_position_fails",
    "Verif.Trees.C44_named_none_fails"
   ],
   "note": "Proved for well-formed trees (keys of the kind of node, distinct names). Refuted for two corner cases of named tuples (_fails theorems): another class is matched by position and not by name, and None raises even when not strict."
  },
  {
   "property": "C45",
   "status": "proved",
   "theorems": [
    "Verif.Trees.C45_last_wins",
    "Verif.Trees.C45_nothing_new",
    "Verif.Trees.C45_union",
    "Verif.Trees.C45_conflict",
    "Verif.Trees.C45_disjoint",
    "Verif.Trees.C45_mismatch",
    "Verif.Trees.C45_empty",
    "Verif.Trees.C45_custom_children_lost_fails"
   ],
   "note": "Proved for well-formed trees that agree on node kinds (overwrite) and for all well-formed trees (no overwrite). Refuted for custom nodes whose children differ (C45_custom_children_lost_fails). Not modelled: overwrite across mapping and sequence."
  },
  {
   "property": "C46",
   "status": "proved",
   "theorems": [
    "Verif.Trees.C46_init",
    "Verif.Trees.C46_empty",
    "Verif.Trees.C46_full",
    "Verif.Trees.C46_unsafe",
    "Verif.Trees.C46_unsafe_round_trip",
    "Verif.Trees.C46_from_full_structure",
    "Verif.Trees.C46_overlay",
    "Verif.Trees.C46_intersect",
    "Verif.Trees.C46_sub",
    "Verif.Trees.C46_split_join",
    "Verif.Trees.C46_select",
    "Verif.Trees.C46_map_leaves",
    "Verif.Trees.C46_filter_values",
    "Verif.Trees.C46_partition"
   ],
   "note": "Every PartsOf operation as a partial map over the leaves of its template, for templates whose sibling keys are distinct as strings: construction, full/unsafe structure, overlay, intersection, difference, select, map_leaves, filter_values, partition; difference and intersection overlay back to the original."
  },
  {
   "property": "C47",
   "status": "proved",
   "theorems": [
    "Verif.Trees.C47_values",
    "Verif.Trees.C47_succeeds",
    "Verif.Trees.C47_empty",
    "Verif.Trees.C47_no_rules",
    "Verif.Trees.C47_fallback_after_rule_fails"
   ],
   "note": "The regular expression engine is an arbitrary function and user functions are total. Refuted in one case (C47_fallback_after_rule_fails): a use_fallback transform after another matching one keeps the other's value."
  },
  {
   "property": "C48",
   "status": "proved",
   "theorems": [
    "Verif.Iterator.C48_increasing",
    "Verif.Iterator.C48_newest",
    "Verif.Iterator.C48_prompt",
    "Verif.Iterator.C48_final_yielded",
    "Verif.Iterator.C48_never_ends",
    "Verif.Iterator.C48_ends_only_on_timeout",
    "Verif.Iterator.C48_times_out",
    "Verif.Iterator.C48_over",
    "Verif.Iterator.C48_first_wait",
    "Verif.Iterator.C48_next_wait",
    "Verif.Iterator.C48_snapshotted",
    "Verif.Iterator.C48_default_snapshot_fails",
    "Verif.Iterator.C48_large_step_fails",
    "Verif.Iterator.C48_timeout_not_restarted_fails"
   ],
   "note": "Polls are the environment; liveness is C48_final_yielded and C48_prompt. Findings: by default a step whose snapshot failed is yielded anyway, a step of 2^31 or more raises, and after timeout_fn refuses the timeout is not restarted within the wait. Release of snapshots and multi-process broadcast are not modelled."
  },
  {
   "property": "C49",
   "status": "proved",
   "theorems": [
    "Verif.Metadata.C49_wait",
    "Verif.Metadata.C49_in_order",
    "Verif.Metadata.C49_submitted",
    "Verif.Metadata.C49_readers",
    "Verif.Metadata.C49_worker_finishes",
    "Verif.Metadata.C49_blocking",
    "Verif.Metadata.C49_blocking_accepts",
    "Verif.Metadata.C49_mutation_fails",
    "Verif.Metadata.C49_read_during_write_fails",
    "Verif.Metadata.C49_broken_write_fails"
   ],
   "note": "Every interleaving of callers and worker; failures of single writes included. Findings: a dictionary changed after write() returned is written as changed, readers can get None during a write, a broken write loses the earlier fields at the next update. close() and writes by other processes are not modelled."
  },
  {
   "property": "C50",
   "status": "partial",
   "theorems": [
    "Verif.Metadata.C50_roundtrip",
    "Verif.Metadata.C50_unknown_kept",
    "Verif.Metadata.C50_one_unknown_kept",
    "Verif.Metadata.C50_additional_metrics",
    "Verif.Metadata.C50_empty",
    "Verif.Metadata.C50_default_statistics",
    "Verif.Metadata.C50_update",
    "Verif.Metadata.C50_update_values",
    "Verif.Metadata.C50_update_unknown",
    "Verif.Metadata.C50_root_roundtrip",
    "Verif.Metadata.C50_serialize_checks",
    "Verif.Metadata.C50_two_unknown_fails",
    "Verif.Metadata.C50_unknown_with_custom_fails",
    "Verif.Metadata.C50_new_statistic_fails",
    "Verif.Metadata.C50_statistics_fails"
   ],
   "note": "Round trip proved except for the statistics that are no floats (C50_statistics_fails); unknown keys are kept when the file has no custom metadata, or empty custom metadata and one unknown key. Otherwise the property is false of the code: C50_two_unknown_fails, C50_unknown_with_custom_fails, C50_new_statistic_fails."
  },
  {
   "property": "C51",
   "status": "partial",
   "theorems": [
    "Verif.TreeMetadata.C51_nested_tree",
    "Verif.TreeMetadata.C51_nested_rich",
    "Verif.TreeMetadata.C51_nested_tree_from_json",
    "Verif.TreeMetadata.C51_placeholders",
    "Verif.TreeMetadata.C51_mixed_keys_fails",
    "Verif.TreeMetadata.C51_json_round_trip",
    "Verif.TreeMetadata.C51_build_entries",
    "Verif.TreeMetadata.C51_short_save_args_fails",
    "Verif.TreeMetadata.C51_named_tuple_fails",
    "Verif.TreeMetadata.C51_equal_keypaths_fails",
    "Verif.TreeMetadata.C51_key_text"
   ],
   "note": "Proved: the JSON round trip for different key paths (C51_json_round_trip), different key paths for every tree JAX makes (C51_build_entries, through the injectivity of Python's str of a tuple), as_nested_tree gives the serialized tree (C51_nested_tree, _rich, _from_json), placeholders have no effect. Fails and proved so: an empty named tuple is read back as None, int/str key collisions lose an entry, sequence and dict keys at the same place raise, a shorter save_args tree drops entries."
  },
  {
   "property": "C52",
   "status": "proved",
   "theorems": [
    "Verif.TreeMetadata.C52_union",
    "Verif.TreeMetadata.C52_conflict",
    "Verif.TreeMetadata.C52_succeeds",
    "Verif.TreeMetadata.C52_mismatch",
    "Verif.TreeMetadata.C52_last_wins",
    "Verif.TreeMetadata.C52_custom_one",
    "Verif.TreeMetadata.C52_custom_both",
    "Verif.TreeMetadata.C52_rich",
    "Verif.TreeMetadata.C52_empty_custom_fails"
   ],
   "note": "Union, conflict, success, flags, any number of objects (last wins), custom metadata and rich trees. Finding: empty custom metadata merged with none is lost."
  },
  {
   "property": "C53",
   "status": "partial",
   "theorems": [
    "Verif.TreeMetadata.C53_round_trip",
    "Verif.TreeMetadata.C53_integer_key_fails",
    "Verif.TreeMetadata.C53_equal_keys_fails",
    "Verif.TreeMetadata.C53_local_class_fails",
    "Verif.TreeMetadata.C53_empty_fails",
    "Verif.TreeMetadata.C53_custom_class_fails"
   ],
   "note": "Round trip proved for all trees of dicts with string keys (including the format's markers), lists, tuples and named tuples whose class can be rebuilt. Fails and proved so: integer keys, equal keys, classes defined in functions, empty containers inside tuples, registered classes."
  },
  {
   "property": "C54",
   "status": "proved",
   "theorems": [
    "Verif.TreeMetadata.C54_read_back",
    "Verif.TreeMetadata.C54_round_trip",
    "Verif.TreeMetadata.C54_several_axes_fails",
    "Verif.TreeMetadata.C54_empty_types_fails",
    "Verif.TreeMetadata.C54_unconstrained_fails",
    "Verif.TreeMetadata.C54_single",
    "Verif.TreeMetadata.C54_unknown",
    "Verif.TreeMetadata.C54_jax",
    "Verif.TreeMetadata.C54_missing_device",
    "Verif.TreeMetadata.C54_single_device",
    "Verif.TreeMetadata.C54_cpu_names"
   ],
   "note": "Full read-back theorem for every mesh, spec and axis types; equality of the metadata holds without tuples of axes (C54_round_trip) and fails with them (C54_several_axes_fails) or with an empty tuple of axis types; the JAX sharding made of it is always the saved one (C54_jax)."
  },
  {
   "property": "C55",
   "status": "proved",
   "theorems": [
    "Verif.TypeRegistry.C55_registered",
    "Verif.TypeRegistry.C55_registered_default",
    "Verif.TypeRegistry.C55_others",
    "Verif.TypeRegistry.C55_others_override",
    "Verif.TypeRegistry.C55_refused",
    "Verif.TypeRegistry.C55_override_succeeds",
    "Verif.TypeRegistry.C55_strings",
    "Verif.TypeRegistry.C55_type_strings",
    "Verif.TypeRegistry.C55_first",
    "Verif.TypeRegistry.C55_same_handler",
    "Verif.TypeRegistry.C55_override_fails",
    "Verif.TypeRegistry.C55_shared_string_fails",
    "Verif.TypeRegistry.C55_function_fails"
   ],
   "note": "Holds for histories without override; with override the base class can lose its handler (C55_override_fails) and type strings can lead to another handler (C55_shared_string_fails)."
  },
  {
   "property": "C56",
   "status": "proved",
   "theorems": [
    "Verif.Composite.C56_registry_add",
    "Verif.Composite.C56_registry_refused",
    "Verif.Composite.C56_registry_copy",
    "Verif.Composite.C56_default_registry_fails",
    "Verif.Composite.C56_default_registry",
    "Verif.Composite.C56_stable",
    "Verif.Composite.C56_stable_succeeds",
    "Verif.Composite.C56_class",
    "Verif.Composite.C56_second_args_fails",
    "Verif.Composite.C56_finalize",
    "Verif.Composite.C56_finalize_nothing",
    "Verif.Composite.C56_finalize_handler",
    "Verif.Composite.C56_finalize_fails",
    "Verif.Composite.C56_general_fails",
    "Verif.Composite.C56_recorded_handler",
    "Verif.Composite.C56_recorded_kept",
    "Verif.Composite.C56_recorded_fails",
    "Verif.Composite.C56_restore_items",
    "Verif.Composite.C56_restore_all",
    "Verif.Composite.C56_restore_missing"
   ],
   "note": "Stability for all histories; finalization complete and exactly once; same handler when the registry has one handler for each item, and counterexamples otherwise."
  },
  {
   "property": "C57",
   "status": "partial",
   "theorems": [
    "Verif.TreeMetadata.C57_once",
    "Verif.TreeMetadata.C57_rounds",
    "Verif.TreeMetadata.C57_children",
    "Verif.TreeMetadata.C57_twice_fails",
    "Verif.TreeMetadata.C57_integer_keys_fails"
   ],
   "note": "True for one unflattening and for any number of rounds of flatten and unflatten; false for a second unflattening with the same structure (C57_twice_fails, for every structure), and integer keys become strings."
  },
  {
   "property": "C58",
   "status": "proved",
   "theorems": [
    "Verif.Trees.C58_merge_target",
    "Verif.Trees.C58_merge",
    "Verif.Trees.C58_intersect",
    "Verif.Trees.C58_no_trees"
   ],
   "note": "Success without a target is not characterised: the theorems say what the result is when there is one."
  },
  {
   "property": "C59",
   "status": "partial",
   "theorems": [
    "Verif.Snapshot.C59_copy",
    "Verif.Snapshot.C59_copy_nonvacuous",
    "Verif.Snapshot.C59_copy_frame",
    "Verif.Snapshot.C59_release",
    "Verif.Snapshot.C59_take_release",
    "Verif.Snapshot.C59_incomplete_fails",
    "Verif.Snapshot.C59_deleted_fails",
    "Verif.Snapshot.C59_deleted_strict_fails",
    "Verif.Snapshot.C59_stale_fails",
    "Verif.Snapshot.C59_release_interrupted_fails",
    "Verif.Snapshot.C59_release_composite_fails",
    "Verif.Snapshot.C59_replace",
    "Verif.Snapshot.C59_replace_versions",
    "Verif.Snapshot.C59_replace_window_fails",
    "Verif.Snapshot.C59_replace_missing_fails"
   ],
   "note": "The undisturbed copy is exact, other snapshots and checkpoints are untouched, release removes exactly the snapshot, replacement keeps a complete version somewhere at every crash point. The remaining claims are false of the code and refuted: an interrupted copy, a copy whose source is deleted, or a stale snapshot is handed out as complete; with a composite name format the snapshot is never released; a crash between the two renames leaves nothing under the source name."
  },
  {
   "property": "C60",
   "status": "partial",
   "theorems": [
    "Verif.ArrayStore.C60_accumulate",
    "Verif.ArrayStore.C60_accumulate_nonvacuous",
    "Verif.ArrayStore.C60_read_all",
    "Verif.ArrayStore.C60_validate",
    "Verif.ArrayStore.C60_validate_nonvacuous",
    "Verif.ArrayStore.C60_random_impl",
    "Verif.ArrayStore.C60_write_shape",
    "Verif.ArrayStore.C60_write_shape_nonvacuous",
    "Verif.ArrayStore.C60_write_shape_missing",
    "Verif.ArrayStore.C60_write_shape_missing_nonvacuous",
    "Verif.ArrayStore.C60_random_found",
    "Verif.ArrayStore.C60_random_found_nonvacuous",
    "Verif.ArrayStore.C60_ext_fails",
    "Verif.ArrayStore.C60_ext_fails_nonvacuous",
    "Verif.ArrayStore.C60_missing_process_fails",
    "Verif.ArrayStore.C60_nothing_written_fails",
    "Verif.ArrayStore.C60_repeated_fails",
    "Verif.ArrayStore.C60_ext_ignored_fails",
    "Verif.ArrayStore.C60_overlap_fails",
    "Verif.ArrayStore.C60_torn_fails"
   ],
   "note": "Accumulation, reading and the exact acceptance condition are proved for all histories, for ext_metadata without a field named array_metadata and unique names. Refuted in general: ext_metadata with such a field, missing processes, repeated names, overlapping writes."
  },
  {
   "property": "C61",
   "status": "partial",
   "theorems": [
    "Verif.Partial.C61_union",
    "Verif.Partial.C61_union_nonvacuous",
    "Verif.Partial.C61_custom",
    "Verif.Partial.C61_custom_nonvacuous",
    "Verif.Partial.C61_array_metadata",
    "Verif.Partial.C61_refuse",
    "Verif.Partial.C61_refuse_nonvacuous",
    "Verif.Partial.C61_accept",
    "Verif.Partial.C61_accept_nonvacuous",
    "Verif.Partial.C61_invisible",
    "Verif.Partial.C61_final_kept",
    "Verif.Partial.C61_save_interrupted",
    "Verif.Partial.C61_data_kept",
    "Verif.Partial.C61_data_kept_nonvacuous",
    "Verif.Partial.C61_metadata_lost_fails",
    "Verif.Partial.C61_unmerged_fails",
    "Verif.Partial.C61_stuck_fails",
    "Verif.Partial.C61_overlap_fails",
    "Verif.Partial.C61_replacement_missed_fails",
    "Verif.Partial.C61_format_mixed_fails"
   ],
   "note": "Union, custom and array metadata, refusal and acceptance, invisibility and preservation of data at every crash point are proved for all histories; that interrupted finalize keeps metadata and can be completed, and that overlapping saves are serialised, is false of the code and refuted."
  },
  {
   "property": "C62",
   "status": "partial",
   "theorems": [
    "Verif.Tiering.C62_one_live_per_path",
    "Verif.Tiering.C62_reserve_existing",
    "Verif.Tiering.C62_reserve_new",
    "Verif.Tiering.C62_reserve_live",
    "Verif.Tiering.C62_reserve_stable",
    "Verif.Tiering.C62_nonvacuous",
    "Verif.Tiering.C62_other_zone_fails",
    "Verif.Tiering.C62_stored_rereserved_fails",
    "Verif.Tiering.C62_abandoned_fails"
   ],
   "note": "One live asset per path in every reachable state, exact effect of Reserve, and stability of a reservation proved for all histories. Three parts of the English claim are false and refuted: the tier path returned may be one on another client's backend, a finalized path is handed out again, and an abandoned reservation blocks its path for ever."
  },
  {
   "property": "C63",
   "status": "partial",
   "theorems": [
    "Verif.Tiering.C63_job_kept",
    "Verif.Tiering.C63_terminal_final",
    "Verif.Tiering.C63_lease_exclusive",
    "Verif.Tiering.C63_lost_job_untouched",
    "Verif.Tiering.C63_claim_sound",
    "Verif.Tiering.C63_claim_progress",
    "Verif.Tiering.C63_claim_effect",
    "Verif.Tiering.C63_nonvacuous",
    "Verif.Tiering.C63_queue_blocked_fails"
   ],
   "note": "Ownership, finality, non-interference of stale reports, soundness and progress of a claim proved for all histories and workers. Progress across claims is false: one job whose claim violates a unique index blocks the queue for ever (refuted for all later claims)."
  },
  {
   "property": "C64",
   "status": "partial",
   "theorems": [
    "Verif.Tiering.C64_capacity_partial",
    "Verif.Tiering.C64_one_running_per_asset_partial",
    "Verif.Tiering.C64_nonvacuous",
    "Verif.Tiering.C64_late_poll_fails",
    "Verif.Tiering.C64_two_per_asset_fails",
    "Verif.Tiering.C64_copy_during_delete_fails"
   ],
   "note": "Capacity and one-job-per-asset proved for all histories in which the select and the commit of a claim do not interleave with another claim and leases are only renewed in time; both are refuted without these hypotheses."
  },
  {
   "property": "C65",
   "status": "partial",
   "theorems": [
    "Verif.Tiering.C65_ready_iff",
    "Verif.Tiering.C65_becomes_ready",
    "Verif.Tiering.C65_ready_persists",
    "Verif.Tiering.C65_stored_readable",
    "Verif.Tiering.C65_source_ready",
    "Verif.Tiering.C65_one_job_per_path",
    "Verif.Tiering.C65_nonvacuous",
    "Verif.Tiering.C65_copy_lost_fails"
   ],
   "note": "READY iff ready time, causes of becoming and staying READY, a STORED asset has a READY path, sources are READY, one copy job per path: proved for all histories. A copy whose trigger result is lost is refuted as never completed (finding)."
  },
  {
   "property": "C66",
   "status": "partial",
   "theorems": [
    "Verif.Tiering.C66_delete_call",
    "Verif.Tiering.C66_pending_refuses",
    "Verif.Tiering.C66_one_pending",
    "Verif.Tiering.C66_delete_completes",
    "Verif.Tiering.C66_deleted_final_partial",
    "Verif.Tiering.C66_nonvacuous",
    "Verif.Tiering.C66_finalize_resurrects_fails",
    "Verif.Tiering.C66_failed_delete_stuck_fails",
    "Verif.Tiering.C66_stale_begin_fails",
    "Verif.Tiering.C66_late_copy_fails",
    "Verif.Tiering.C66_queued_copy_fails"
   ],
   "note": "Exact effect of Delete, exclusion while pending, at most one pending deletion and the effect of completion proved for all histories. DELETED is final only if no Finalize was in flight (_partial); refuted otherwise, as are repeatability of a failed deletion (for all later histories), and protection against stale workers, late and queued copies."
  },
  {
   "property": "C67",
   "status": "partial",
   "theorems": [
    "Verif.Tiering.C67_one_active_per_backend",
    "Verif.Tiering.C67_prefetch_read",
    "Verif.Tiering.C67_prefetch_commit",
    "Verif.Tiering.C67_keep_alive",
    "Verif.Tiering.C67_nonvacuous",
    "Verif.Tiering.C67_completion_shortens_fails",
    "Verif.Tiering.C67_prefetch_during_delete_fails"
   ],
   "note": "One active tier path per backend, exact effect of Prefetch and of keep-alives proved for all reachable states. Refuted: the completion of a copy may shorten a promised lease, and a prefetch can be admitted during a deletion."
  },
  {
   "property": "C68",
   "status": "partial",
   "theorems": [
    "Verif.Tiering.Routing.C68_paths_distinct",
    "Verif.Tiering.Routing.C68_path_below_prefix",
    "Verif.Tiering.Routing.C68_parse",
    "Verif.Tiering.Routing.C68_delete_exact",
    "Verif.Tiering.Routing.C68_paths_apart_partial",
    "Verif.Tiering.Routing.C68_delete_nonvacuous",
    "Verif.Tiering.Routing.C68_foreign_address_fails",
    "Verif.Tiering.Routing.C68_nested_asset_fails",
    "Verif.Tiering.Routing.C68_locate_zone",
    "Verif.Tiering.Routing.C68_locate_region",
    "Verif.Tiering.Routing.C68_locate_no_region",
    "Verif.Tiering.Routing.C68_locate_nonvacuous",
    "Verif.Tiering.Routing.C68_zone_only_refused_fails",
    "Verif.Tiering.Routing.C68_prefix_other_region_fails",
    "Verif.Tiering.Routing.C68_match_sound",
    "Verif.Tiering.Routing.C68_match_complete",
    "Verif.Tiering.Routing.C68_match_nonvacuous"
   ],
   "note": "Proved for the selection of backends, for distinctness and containment of storage paths and for exact deletion. Tier paths are apart when the reserved path does not itself begin with the storage path of another tier path (C68_paths_apart_partial). False as stated: a request with only a zone is refused, the choice by zone name can take another region, an address of another bucket is stored where deletion does not look, and an asset reserved inside another one is removed with it."
  },
  {
   "property": "C69",
   "status": "partial",
   "theorems": [
    "Verif.Tiering.Routing.C69_verify",
    "Verif.Tiering.Routing.C69_initialize",
    "Verif.Tiering.Routing.C69_initialized_valid",
    "Verif.Tiering.Routing.C69_nonvacuous",
    "Verif.Tiering.Routing.C69_repeated_entry_fails",
    "Verif.Tiering.Routing.C69_concurrent_init_fails",
    "Verif.Tiering.Routing.C69_concurrent_nonvacuous"
   ],
   "note": "Proved for configurations without two entries of the same location; a configuration with a repeated entry, and two servers initializing at once, give tables that never verify (C69_*_fails)."
  },
  {
   "property": "C70",
   "status": "partial",
   "theorems": [
    "Verif.Tiering.Client.C70_refused",
    "Verif.Tiering.Client.C70_keep_alive_partial",
    "Verif.Tiering.Client.C70_prefetch_path_partial",
    "Verif.Tiering.Client.C70_released_partial",
    "Verif.Tiering.Client.C70_prefetch_returns",
    "Verif.Tiering.Client.C70_nonvacuous",
    "Verif.Tiering.Client.C70_wrong_path_fails",
    "Verif.Tiering.Client.C70_orphan_fails",
    "Verif.Tiering.Client.C70_finalize_other_fails",
    "Verif.Tiering.Client.C70_finalize_hangs_fails",
    "Verif.Tiering.Client.C70_release_path_fails",
    "Verif.Tiering.Client.C70_failed_prefetch_fails"
   ],
   "note": "Proved for histories in which no reserve or prefetch is begun while another one waits for its answer. Without this the claim is false (wrong path returned, orphaned keep-alive); finalize and release_path do not look at which asset they are given; a failed prefetch blocks the client (C70_*_fails)."
  },
  {
   "property": "C71",
   "status": "partial",
   "theorems": [
    "Verif.Emergency.Wire.C71_message_round_trip",
    "Verif.Emergency.Wire.C71_message_truncated",
    "Verif.Emergency.Wire.C71_empty_message_fails",
    "Verif.Emergency.Wire.C71_download_sound",
    "Verif.Emergency.Wire.C71_download_complete",
    "Verif.Emergency.Wire.C71_path_inside",
    "Verif.Emergency.Wire.C71_path_accepted",
    "Verif.Emergency.Wire.C71_path_absolute",
    "Verif.Emergency.Wire.C71_fetch_sound_partial",
    "Verif.Emergency.Wire.C71_fetch_complete",
    "Verif.Emergency.Wire.C71_fetch_other_process",
    "Verif.Emergency.Wire.C71_empty_file_lost_fails",
    "Verif.Emergency.Wire.C71_order_matters_fails",
    "Verif.Emergency.Wire.C71_nonvacuous"
   ],
   "note": "Messages, downloads, paths and fetching are proved; false as stated for empty payloads, empty files (lost from a fetched shard) and some download orders: see the _fails theorems. The sound direction of fetch excludes empty files."
  },
  {
   "property": "C72",
   "status": "partial",
   "theorems": [
    "Verif.Emergency.Peers.C72_latest_complete",
    "Verif.Emergency.Peers.C72_source_announced",
    "Verif.Emergency.Peers.C72_source_own",
    "Verif.Emergency.Peers.C72_source_same_shard",
    "Verif.Emergency.Peers.C72_source_has_step_partial",
    "Verif.Emergency.Peers.C72_wrong_owner_fails",
    "Verif.Emergency.Peers.C72_complete_missed_fails",
    "Verif.Emergency.Peers.C72_layout_fails",
    "Verif.Emergency.Peers.C72_spanning_fails",
    "Verif.Emergency.Peers.C72_nonvacuous"
   ],
   "note": "Completeness and choice of the source are proved; holding the right data needs all steps of a host to have one owner and replicas to be laid out alike; each hypothesis is shown necessary by a _fails theorem."
  },
  {
   "property": "C73",
   "status": "partial",
   "theorems": [
    "Verif.Emergency.Slices.C73_exchange",
    "Verif.Emergency.Slices.C73_complete_iff",
    "Verif.Emergency.Slices.C73_all_steps",
    "Verif.Emergency.Slices.C73_restore_step",
    "Verif.Emergency.Slices.C73_restore_fresh",
    "Verif.Emergency.Slices.C73_restore_saved",
    "Verif.Emergency.Slices.C73_failed_save_fails",
    "Verif.Emergency.Slices.C73_spanning_fails",
    "Verif.Emergency.Slices.C73_outside_fails",
    "Verif.Emergency.Slices.C73_nonvacuous"
   ],
   "note": "Proved for regular meshes (every process in one replica, replicas with equally many processes) for fresh managers and finished saves; irregular meshes and failed background saves are refuted."
  },
  {
   "property": "C74",
   "status": "partial",
   "theorems": [
    "Verif.Emergency.Mesh.C74_flip",
    "Verif.Emergency.Mesh.C74_flip_refuses",
    "Verif.Emergency.Mesh.C74_runtime_ids",
    "Verif.Emergency.Mesh.C74_same_hardware",
    "Verif.Emergency.Mesh.C74_mesh_exists",
    "Verif.Emergency.Mesh.C74_plain_fails",
    "Verif.Emergency.Mesh.C74_slice_read_partial",
    "Verif.Emergency.Mesh.C74_swapped_slices_fails",
    "Verif.Emergency.Mesh.C74_mixed_slices_fails",
    "Verif.Emergency.Mesh.C74_nonvacuous"
   ],
   "note": "Placement is proved for all renumberings; reading all positions needs the slices to consist of the same hosts under the same number; the swap is refuted."
  },
  {
   "property": "C75",
   "status": "partial",
   "theorems": [
    "Verif.Emergency.Broadcast.C75_batches_partition",
    "Verif.Emergency.Broadcast.C75_batches_limit",
    "Verif.Emergency.Broadcast.C75_batches_full",
    "Verif.Emergency.Broadcast.C75_limits_differ_fails",
    "Verif.Emergency.Broadcast.C75_broadcast_value",
    "Verif.Emergency.Broadcast.C75_dtype_fails",
    "Verif.Emergency.Broadcast.C75_negative_zero_fails",
    "Verif.Emergency.Broadcast.C75_nonvacuous"
   ],
   "note": "Batching proved for all limits; values proved when zero is neutral for addition; types of narrow integers and booleans, negative zero and differing limits are refuted."
  },
  {
   "property": "C76",
   "status": "partial",
   "theorems": [
    "Verif.Emergency.Manager.C76_right_shard",
    "Verif.Emergency.Manager.C76_agree",
    "Verif.Emergency.Manager.C76_fallback",
    "Verif.Emergency.Manager.C76_persistent_latest",
    "Verif.Emergency.Manager.C76_complete",
    "Verif.Emergency.Manager.C76_second_restore_fails",
    "Verif.Emergency.Manager.C76_other_restore_fails",
    "Verif.Emergency.Manager.C76_fallback_missing_fails",
    "Verif.Emergency.Manager.C76_newer_ignored_fails",
    "Verif.Emergency.Manager.C76_disagree_fails",
    "Verif.Emergency.Manager.C76_local_owner_fails",
    "Verif.Emergency.Manager.C76_nonvacuous"
   ],
   "note": "Right shard, agreement with persistent storage, fallback and first restore are proved; repeated restores of a prefetched step, agreement without persistent storage, fallback of restore() to a step persistent storage lacks, and a step on the disk with another owner are refuted."
  },
  {
   "property": "C77",
   "status": "proved",
   "theorems": [
    "Verif.Safetensors.C77_runs_elements",
    "Verif.Safetensors.C77_runs_disjoint",
    "Verif.Safetensors.C77_leading_single",
    "Verif.Safetensors.C77_nonvacuous"
   ],
   "note": "Boxes are valid index bounds inside the shape."
  },
  {
   "property": "C78",
   "status": "proved",
   "theorems": [
    "Verif.Safetensors.C78_buffers",
    "Verif.Safetensors.C78_shards",
    "Verif.Safetensors.C78_read_once",
    "Verif.Safetensors.C78_nonvacuous"
   ],
   "note": "The over-read policy is an arbitrary predicate, which covers the floating-point comparison. The in-flight byte budget is the limiter of another claim and only orders completions."
  },
  {
   "property": "C79",
   "status": "partial",
   "theorems": [
    "Verif.Safetensors.C79_opens",
    "Verif.Safetensors.C79_whole",
    "Verif.Safetensors.C79_sharded",
    "Verif.Safetensors.C79_truncated_refused",
    "Verif.Safetensors.C79_index",
    "Verif.Safetensors.C79_index_total",
    "Verif.Safetensors.C79_short_span_fails",
    "Verif.Safetensors.C79_long_span",
    "Verif.Safetensors.C79_any_short_span_fails",
    "Verif.Safetensors.C79_nonvacuous"
   ],
   "note": "JSON parsing is a parameter. Missing because it is false of the code: offsets in the header are not compared with the shape, so a file whose offsets span too few bytes is loaded without error and with uninitialised memory (C79_short_span_fails)."
  },
  {
   "property": "C80",
   "status": "partial",
   "theorems": [
    "Verif.Safetensors.C80_over_read",
    "Verif.Safetensors.C80_requests",
    "Verif.Safetensors.C80_auto_few",
    "Verif.Safetensors.C80_many_reads_fails",
    "Verif.Safetensors.C80_floor_over_read_fails",
    "Verif.Safetensors.C80_nonvacuous"
   ],
   "note": "Ratios are fractions, not floating-point numbers. Missing because it is false of the code: the automatic ratio does not keep the number of requests bounded (C80_many_reads_fails), and a ratio of 1.0 still reads gaps up to the floor (C80_floor_over_read_fails)."
  },
  {
   "property": "C81",
   "status": "partial",
   "theorems": [
    "Verif.V1.C81_add",
    "Verif.V1.C81_unique",
    "Verif.V1.C81_copy",
    "Verif.V1.C81_save_named",
    "Verif.V1.C81_save_latest",
    "Verif.V1.C81_save_stateful",
    "Verif.V1.C81_same_handler",
    "Verif.V1.C81_load_untemplated",
    "Verif.V1.C81_load_accepts",
    "Verif.V1.C81_stateful_named_fails",
    "Verif.V1.C81_secondary_steals_fails",
    "Verif.V1.C81_named_overridden_fails",
    "Verif.V1.C81_unconstructible_fails",
    "Verif.V1.C81_nested_local_fails",
    "Verif.V1.C81_nonvacuous"
   ],
   "note": "The same-handler claim holds when no other registered class uses the handler's type string and no other handler is registered for the name of a value that saves itself; outside that it is false (C81_stateful_named_fails, C81_secondary_steals_fails, C81_named_overridden_fails). Also findings: one class that cannot be constructed breaks every save; nesting local registries is refused."
  },
  {
   "property": "C82",
   "status": "partial",
   "theorems": [
    "Verif.V1.C82_save_iff",
    "Verif.V1.C82_round_trip",
    "Verif.V1.C82_subset",
    "Verif.V1.C82_missing",
    "Verif.V1.C82_reserved",
    "Verif.V1.C82_incomplete",
    "Verif.V1.C82_auto",
    "Verif.V1.C82_state_round_trip",
    "Verif.V1.C82_single_tree_refused",
    "Verif.V1.C82_empty_directory_fails",
    "Verif.V1.C82_reported_but_refused_fails",
    "Verif.V1.C82_one_needs_template_fails",
    "Verif.V1.C82_fallback",
    "Verif.V1.C82_version0",
    "Verif.V1.C82_default_names",
    "Verif.V1.C82_nonvacuous"
   ],
   "note": "Handlers are abstract (encode/decode); several processes and the crash points of writing are C18-C20. Findings: an empty directory counts as a checkpoint and loads as nothing; is_orbax_checkpoint and load disagree on a directory without metadata; one checkpointable that needs a template makes loading everything fail."
  },
  {
   "property": "C83",
   "status": "partial",
   "theorems": [
    "Verif.V1.Training.C83_result_means_saved",
    "Verif.V1.Training.C83_never_emptied",
    "Verif.V1.Training.C83_latest",
    "Verif.V1.Training.C83_load",
    "Verif.V1.Training.C83_exists",
    "Verif.V1.Training.C83_skipped",
    "Verif.V1.Training.C83_overwrite_replaces",
    "Verif.V1.Training.C83_overwrite_declined_fails",
    "Verif.V1.Training.C83_replaced_checkpointer_fails",
    "Verif.V1.Training.C83_overwrite_in_flight_fails",
    "Verif.V1.Training.C83_load_in_flight_fails",
    "Verif.V1.Training.C83_lightweight_fails",
    "Verif.V1.Training.C83_nonvacuous"
   ],
   "note": "Proved for histories without overwriting in which a finalize thread takes its first step before the next save call; the general claim is false (C83_replaced_checkpointer_fails: every save call replaces the object the previous finalize thread will wait for). Other findings: overwrite without force deletes and may skip; load() during a save fails; lightweight_initialize makes every call raise. One process; policies and deletions do not raise; contents abstracted."
  },
  {
   "property": "C84",
   "status": "partial",
   "theorems": [
    "Verif.Surgery.C84_fuse_by_keys",
    "Verif.Surgery.C84_fuse_by_keys_missing",
    "Verif.Surgery.C84_fuse_by_keys_succeeds",
    "Verif.Surgery.C84_fuse_by_pattern_partial",
    "Verif.Surgery.C84_repeat_by_pattern",
    "Verif.Surgery.C84_repeat_by_pattern_keys",
    "Verif.Surgery.C84_repeat_by_keys",
    "Verif.Surgery.C84_repeat_twice_fails",
    "Verif.Surgery.C84_rename",
    "Verif.Surgery.C84_rename_collision_fails",
    "Verif.Surgery.C84_fuse_same_part_fails",
    "Verif.Surgery.C84_fuse_clobbers_fails",
    "Verif.Surgery.C84_nonvacuous",
    "Verif.Surgery.C84_stack_partial",
    "Verif.Surgery.C84_stack_rest",
    "Verif.Surgery.C84_stack_succeeds",
    "Verif.Surgery.C84_stack_caller",
    "Verif.Surgery.C84_stack_inplace_fails",
    "Verif.Surgery.C84_stack_clobbers_fails",
    "Verif.Surgery.C84_stack_skips_fails",
    "Verif.Surgery.C84_stack_negative_axis_fails",
    "Verif.Surgery.C84_stream_shape",
    "Verif.Surgery.C84_stream_values"
   ],
   "note": "Stacking proved for items below the count (all items if there is no filler) and axes counted from the front when padding; fusing by pattern when no two keys are the same part and no fused name is taken; renaming when no two keys get one name. Each condition is shown necessary by a finding. Element types, broadcasting and device placement are not modelled."
  },
  {
   "property": "C85",
   "status": "partial",
   "theorems": [
    "Verif.PyTree.C85_partial_restore",
    "Verif.PyTree.C85_restore_placeholders",
    "Verif.PyTree.C85_restore",
    "Verif.PyTree.C85_restore_item",
    "Verif.PyTree.C85_restore_types",
    "Verif.PyTree.C85_save",
    "Verif.PyTree.C85_equal_names_fails",
    "Verif.PyTree.C85_empty_item_fails",
    "Verif.PyTree.C85_empty_saved_fails",
    "Verif.PyTree.C85_partial_placeholder_fails",
    "Verif.PyTree.C85_partial_nothing_fails",
    "Verif.PyTree.C85_placeholder_subtree_fails",
    "Verif.PyTree.C85_placeholder_list_fails",
    "Verif.PyTree.C85_restore_nonvacuous",
    "Verif.PyTree.C85_partial_restore_nonvacuous",
    "Verif.PyTree.C85_restore_placeholders_nonvacuous",
    "Verif.PyTree.C85_equal_names_nonvacuous",
    "Verif.PyTree.C85_empty_nonvacuous"
   ],
   "note": "Proved for trees whose parameter names (joined by dots) are distinct, which C85_equal_names_fails shows necessary. The other counterexamples are findings. Without rich types (the default); one process; strict array restore arguments and array data are not modelled; type handlers are assumed to read back what they wrote."
  },
  {
   "property": "C86",
   "status": "partial",
   "theorems": [
    "Verif.PyTree.C86_shared_value_fails",
    "Verif.PyTree.C86_slash_fails",
    "Verif.PyTree.C86_undeclared_inputs_fails",
    "Verif.PyTree.C86_restore_nonvacuous",
    "Verif.PyTree.C86_empty_item_fails",
    "Verif.PyTree.C86_slash_nonvacuous",
    "Verif.PyTree.C86_shared_value_nonvacuous",
    "Verif.PyTree.C86_empty_value_nonvacuous",
    "Verif.PyTree.C86_undeclared_inputs_nonvacuous",
    "Verif.PyTree.C86_restore",
    "Verif.PyTree.C86_values",
    "Verif.PyTree.C86_reads_only_wanted",
    "Verif.PyTree.C86_succeeds",
    "Verif.PyTree.C86_empty_value_fails"
   ],
   "note": "Proved for checkpoints with a metadata file, if joined names are not ambiguous and no transform takes a value for an empty container of the item. Findings (the statement is false): C86_shared_value_fails (two leaves taking the same value with different arguments), C86_slash_fails, C86_empty_item_fails, C86_empty_value_fails (metadata objects in the result), C86_undeclared_inputs_fails."
  },
  {
   "property": "C87",
   "status": "partial",
   "theorems": [
    "Verif.Emergency.Replicator.C87_unlisted",
    "Verif.Emergency.Replicator.C87_resized",
    "Verif.Emergency.Replicator.C87_tree_dataset_fails",
    "Verif.Emergency.Replicator.C87_no_directory_fails",
    "Verif.Emergency.Replicator.C87_delete_fails",
    "Verif.Emergency.Replicator.C87_forced",
    "Verif.Emergency.Replicator.C87_forced_nonvacuous",
    "Verif.Emergency.Replicator.C87_dataset_skipped_fails",
    "Verif.Emergency.Replicator.C87_dataset_skipped_nonvacuous",
    "Verif.Emergency.Replicator.C87_stale_dataset_fails",
    "Verif.Emergency.Replicator.C87_nonvacuous",
    "Verif.Emergency.Replicator.C87_succeeds_nonvacuous",
    "Verif.Emergency.Replicator.C87_latestN_nonvacuous",
    "Verif.Emergency.Replicator.C87_mesh_axes_fails",
    "Verif.Emergency.Replicator.C87_time_policy_fails",
    "Verif.Emergency.Replicator.C87_no_directory_nonvacuous",
    "Verif.Emergency.Replicator.C87_delete_nonvacuous",
    "Verif.Emergency.Replicator.C87_resized_nonvacuous",
    "Verif.Emergency.Replicator.C87_succeeds",
    "Verif.Emergency.Replicator.C87_pairs",
    "Verif.Emergency.Replicator.C87_pairs_succeed",
    "Verif.Emergency.Replicator.C87_latest",
    "Verif.Emergency.Replicator.C87_state"
   ],
   "note": "The state part is proved for all histories (C87_state, C87_succeeds, C87_resized). The dataset part is proved if no restart loses local steps, every save gives a dataset and the policy depends on steps only (C87_pairs); it is false otherwise: C87_dataset_skipped_fails, C87_stale_dataset_fails, C87_time_policy_fails, C87_no_directory_fails, C87_tree_dataset_fails. Also C87_delete_fails, C87_mesh_axes_fails. Saves commit and deletions succeed in this model."
  },
  {
   "property": "C88",
   "status": "partial",
   "theorems": [
    "Verif.Arrays.Zarr.C88_direct_nonvacuous",
    "Verif.Arrays.Zarr.C88_ocdbt_nonvacuous",
    "Verif.Arrays.Zarr.C88_interrupted_nonvacuous",
    "Verif.Arrays.Zarr.C88_one_writer_nonvacuous",
    "Verif.Arrays.Zarr.C88_saves_nonvacuous",
    "Verif.Arrays.Zarr.C88_chunk_fits_file_nonvacuous",
    "Verif.Arrays.Zarr.C88_refused_nonvacuous",
    "Verif.Arrays.Zarr.C88_reserved_nonvacuous",
    "Verif.Arrays.Zarr.C88_reserved_empty_fails_nonvacuous",
    "Verif.Arrays.Zarr.C88_sharding_nonvacuous",
    "Verif.Arrays.Zarr.C88_saves",
    "Verif.Arrays.Zarr.C88_chunk_fits_file",
    "Verif.Arrays.Zarr.C88_refused",
    "Verif.Arrays.Zarr.C88_reserved",
    "Verif.Arrays.Zarr.C88_reserved_cast_fails",
    "Verif.Arrays.Zarr.C88_reserved_empty_fails",
    "Verif.Arrays.Zarr.C88_sharding",
    "Verif.Arrays.Zarr.C88_sharding_precedence_fails",
    "Verif.Arrays.Zarr.C88_one_writer",
    "Verif.Arrays.Zarr.C88_direct",
    "Verif.Arrays.Zarr.C88_ocdbt",
    "Verif.Arrays.Zarr.C88_interrupted"
   ],
   "note": "Everything is proved for all inputs and schedules except the precedence of the sharding, which is false (C88_sharding_precedence_fails; what the code does is C88_sharding), and the reserved bytes, which are exact for the item size the array is opened with (C88_reserved) but too few when casting to smaller items (C88_reserved_cast_fails) and more than zero for some empty regions (C88_reserved_empty_fails). TensorStore is modelled by its chunk store."
  },
  {
   "property": "C89",
   "status": "partial",
   "theorems": [
    "Verif.Handlers.Standard.C89_same_target_nonvacuous",
    "Verif.Handlers.Standard.C89_no_target_nonvacuous",
    "Verif.Handlers.Standard.C89_no_devices_nonvacuous",
    "Verif.Handlers.Standard.C89_stored_nonvacuous",
    "Verif.Handlers.Standard.C89_restored_nonvacuous",
    "Verif.Handlers.Standard.C89_truncates_fails",
    "Verif.Handlers.Standard.C89_empty_fails",
    "Verif.Handlers.Standard.C89_restored",
    "Verif.Handlers.Standard.C89_stored",
    "Verif.Handlers.Standard.C89_succeeds_iff",
    "Verif.Handlers.Standard.C89_same_target",
    "Verif.Handlers.Standard.C89_no_target",
    "Verif.Handlers.Standard.C89_no_devices",
    "Verif.Handlers.Standard.C89_number_conversion",
    "Verif.Handlers.Standard.C89_shape_fails",
    "Verif.Handlers.Standard.C89_struct_fails",
    "Verif.Handlers.Standard.C89_metadata_fails",
    "Verif.Handlers.Standard.C89_scalar_fails",
    "Verif.Handlers.Standard.C89_saveable"
   ],
   "note": "The round trips and the exact condition for success are proved for all trees and targets. The refusal of other shapes in strict mode holds for targets with shardings only (C89_restored; false otherwise, C89_shape_fails), and NumPy scalars other than np.float64 cannot be their own target (C89_scalar_fails). Random keys, layouts, placeholders and empty nodes are not modelled here."
  },
  {
   "property": "C90",
   "status": "partial",
   "theorems": [
    "Verif.V1.Context.C90_other_thread_fails",
    "Verif.V1.Context.C90_container_fails",
    "Verif.V1.Context.C90_scope_nonvacuous",
    "Verif.V1.Context.C90_frozen_nonvacuous",
    "Verif.V1.Context.C90_frozen_sharp",
    "Verif.V1.Context.C90_thread_nonvacuous",
    "Verif.V1.Context.C90_inherits_nonvacuous",
    "Verif.V1.Context.C90_child_independent_nonvacuous",
    "Verif.V1.Context.C90_new_is_mutable_nonvacuous",
    "Verif.V1.Context.C90_inherits",
    "Verif.V1.Context.C90_child_independent",
    "Verif.V1.Context.C90_parent_independent",
    "Verif.V1.Context.C90_new_is_mutable",
    "Verif.V1.Context.C90_checkpointer",
    "Verif.V1.Context.C90_checkpointer_copy",
    "Verif.V1.Context.C90_checkpointer_fails",
    "Verif.V1.Context.C90_scope",
    "Verif.V1.Context.C90_thread",
    "Verif.V1.Context.C90_task",
    "Verif.V1.Context.C90_frozen"
   ],
   "note": "Proved for all object graphs and histories, with three findings where the statement is false: the freeze does not bind other threads (C90_other_thread_fails) nor changes in place (C90_container_fails), and the context of a Checkpointer gives way to an active one (C90_checkpointer_fails). Reuse of the ids of freed objects and etils' ContextManager are not modelled."
  },
  {
   "property": "C91",
   "status": "partial",
   "theorems": [
    "Verif.Manager.Infos.C91_append_fails",
    "Verif.Manager.Infos.C91_append_set_fails",
    "Verif.Manager.Infos.C91_linear_nonvacuous",
    "Verif.Manager.Infos.C91_loop_nonvacuous",
    "Verif.Manager.Infos.C91_timeout_nonvacuous",
    "Verif.Manager.Infos.C91_released_nonvacuous",
    "Verif.Manager.Infos.C91_linear",
    "Verif.Manager.Infos.C91_order",
    "Verif.Manager.Infos.C91_loop",
    "Verif.Manager.Infos.C91_exclusive",
    "Verif.Manager.Infos.C91_released",
    "Verif.Manager.Infos.C91_timeout_fails"
   ],
   "note": "Linearizability proved for all schedules and timeouts unless an append overlaps with a set or delete_if of another thread, where it is false (C91_append_fails, C91_append_set_fails). Release of the lock proved without timeouts; with them it is false (C91_timeout_fails). The reads without lock (len, indexing, empty, size) are not modelled."
  },
  {
   "property": "C92",
   "status": "partial",
   "theorems": [
    "Verif.Handlers.Strings.C92_strings",
    "Verif.Handlers.Strings.C92_nothing_else",
    "Verif.Handlers.Strings.C92_tilde_fails",
    "Verif.Handlers.Strings.C92_slash_fails",
    "Verif.Handlers.Strings.C92_strings_nonvacuous"
   ],
   "note": "Proved for all names of which none continues another with a slash and whose tildes are escapes; for the others it is false (C92_tilde_fails, C92_slash_fails). The JSON driver of TensorStore is modelled after its documentation."
  },
  {
   "property": "C93",
   "status": "partial",
   "theorems": [
    "Verif.Handlers.Msgpack.C93_round_trip",
    "Verif.Handlers.Msgpack.C93_any_size",
    "Verif.Handlers.Msgpack.C93_large_in_list_fails",
    "Verif.Handlers.Msgpack.C93_big_endian_fails",
    "Verif.Handlers.Msgpack.C93_int_key_fails",
    "Verif.Handlers.Msgpack.C93_reserved_key_fails",
    "Verif.Handlers.Msgpack.C93_nonvacuous",
    "Verif.Handlers.Msgpack.C93_findings_nonvacuous"
   ],
   "note": "Proved for trees with string keys other than the reserved one and arrays of native byte order; for the others it is false (C93_big_endian_fails, C93_int_key_fails, C93_reserved_key_fails), and large arrays are refused inside lists and tuples (C93_large_in_list_fails). The msgpack library is modelled as a faithful codec with a limit per array."
  },
  {
   "property": "C94",
   "status": "partial",
   "theorems": [
    "Verif.Snapshots.C94_order",
    "Verif.Snapshots.C94_join",
    "Verif.Snapshots.C94_latest",
    "Verif.Snapshots.C94_whole",
    "Verif.Snapshots.C94_load",
    "Verif.Snapshots.C94_replicas",
    "Verif.Snapshots.C94_forward",
    "Verif.Snapshots.C94_reset_fails",
    "Verif.Snapshots.C94_worker_fails",
    "Verif.Snapshots.C94_objects_fails",
    "Verif.Snapshots.C94_load_nonvacuous",
    "Verif.Snapshots.C94_reset_nonvacuous",
    "Verif.Snapshots.C94_worker_nonvacuous"
   ],
   "note": "Order, join, wholeness, load and replicas are proved for all runs. That the latest step never goes back is proved without resetting loads and false with them (C94_reset_fails); a worker that ends with another exception drops all later saves (C94_worker_fails); leaves that are not JAX arrays are not copied (C94_objects_fails). Arrays are taken to be replicated along the replica axis, and transfers to keep values."
  },
  {
   "property": "C95",
   "status": "partial",
   "theorems": [
    "Verif.LeafRegistry.C95_most_specific",
    "Verif.LeafRegistry.C95_abstract_most_specific",
    "Verif.LeafRegistry.C95_exact",
    "Verif.LeafRegistry.C95_order",
    "Verif.LeafRegistry.C95_add",
    "Verif.LeafRegistry.C95_type_handlers",
    "Verif.LeafRegistry.C95_standard",
    "Verif.LeafRegistry.C95_numpy_numbers_fails",
    "Verif.LeafRegistry.C95_type_string_fails",
    "Verif.LeafRegistry.C95_nonvacuous",
    "Verif.LeafRegistry.C95_order_nonvacuous"
   ],
   "note": "Proved for all histories, for subclass relations that are reflexive, transitive and antisymmetric. Findings: NumPy numbers have no handler (C95_numpy_numbers_fails); type strings of registered classes can change (C95_type_string_fails). Types for which issubclass raises are not modelled."
  },
  {
   "property": "C96",
   "status": "partial",
   "theorems": [
    "Verif.Export.ValidateProps.C96_as_coded",
    "Verif.Export.ValidateProps.C96_pass_iff_partial",
    "Verif.Export.ValidateProps.C96_identical",
    "Verif.Export.ValidateProps.C96_tolerance_fails",
    "Verif.Export.ValidateProps.C96_elements_fails",
    "Verif.Export.ValidateProps.C96_empty_fails",
    "Verif.Export.ValidateProps.C96_names",
    "Verif.Export.ValidateProps.C96_nan_fails",
    "Verif.Export.ValidateProps.C96_shape_fails",
    "Verif.Export.ValidateProps.C96_array_fails",
    "Verif.Export.ValidateProps.C96_nonvacuous"
   ],
   "note": "The claim holds when both tolerances are equal and the other outputs are scalars (C96_pass_iff_partial); what the code does in general is C96_as_coded. Findings: C96_tolerance_fails, C96_elements_fails, C96_empty_fails, C96_nan_fails, C96_shape_fails, C96_array_fails. Floating-point rounding is not modelled."
  },
  {
   "property": "C97",
   "status": "partial",
   "theorems": [
    "Verif.Export.ManagerProps.C97_accepts",
    "Verif.Export.ManagerProps.C97_signature",
    "Verif.Export.ManagerProps.C97_saved",
    "Verif.Export.ManagerProps.C97_update",
    "Verif.Export.ManagerProps.C97_baseline",
    "Verif.Export.ManagerProps.C97_refused_update_fails",
    "Verif.Export.ManagerProps.C97_partial_update_fails",
    "Verif.Export.ManagerProps.C97_passthrough_fails",
    "Verif.Export.ManagerProps.C97_orbax_model_fails",
    "Verif.Export.ManagerProps.C97_converter_fails",
    "Verif.Export.ManagerProps.C97_preprocess_only_fails",
    "Verif.Export.ManagerProps.C97_nonvacuous",
    "Verif.Export.ManagerProps.C97_preprocess_only_nonvacuous"
   ],
   "note": "Everything except that a refused update changes nothing and that each kind of export is written, which are false: C97_refused_update_fails, C97_partial_update_fails, C97_preprocess_only_fails, C97_passthrough_fails, C97_orbax_model_fails, C97_converter_fails. That jax2tf and SavedModel preserve what functions compute is assumed."
  },
  {
   "property": "C98",
   "status": "proved",
   "theorems": [
    "Verif.Export.SignatureProps.C98_accepts",
    "Verif.Export.SignatureProps.C98_call",
    "Verif.Export.SignatureProps.C98_batching",
    "Verif.Export.SignatureProps.C98_rows",
    "Verif.Export.SignatureProps.C98_documented_order_fails",
    "Verif.Export.SignatureProps.C98_primary_default_fails",
    "Verif.Export.SignatureProps.C98_nonvacuous"
   ],
   "note": "The documentation's order of parameters is contradicted: C98_documented_order_fails; also C98_primary_default_fails. Checks of shapes and types by tf.function are not modelled."
  },
  {
   "property": "C99",
   "status": "partial",
   "theorems": [
    "Verif.Export.ExportedMapProps.C99_round_trip_partial",
    "Verif.Export.ExportedMapProps.C99_no_overwrite",
    "Verif.Export.ExportedMapProps.C99_keeps",
    "Verif.Export.ExportedMapProps.C99_relative_fails",
    "Verif.Export.ExportedMapProps.C99_slash_fails",
    "Verif.Export.ExportedMapProps.C99_interrupted_fails",
    "Verif.Export.ExportedMapProps.C99_empty_fails",
    "Verif.Export.ExportedMapProps.C99_nonvacuous"
   ],
   "note": "Holds for absolute paths, keys without slashes, nonempty maps, uninterrupted saves (C99_round_trip_partial); otherwise false: C99_relative_fails, C99_slash_fails, C99_interrupted_fails, C99_empty_fails."
  },
  {
   "property": "C100",
   "status": "partial",
   "theorems": [
    "Verif.V1.CreationProps.C100_created_partial",
    "Verif.V1.CreationProps.C100_once",
    "Verif.V1.CreationProps.C100_progress",
    "Verif.V1.CreationProps.C100_failed_creation_fails",
    "Verif.V1.CreationProps.C100_missing_directory_fails",
    "Verif.V1.CreationProps.C100_nonvacuous"
   ],
   "note": "That the directories exist is proved for processes in which the creation has not failed (C100_created_partial); otherwise false: C100_failed_creation_fails, C100_missing_directory_fails."
  },
  {
   "property": "C101",
   "status": "partial",
   "theorems": [
    "Verif.Handlers.JsonProps.C101_round_trip",
    "Verif.Handlers.JsonProps.C101_reads",
    "Verif.Handlers.JsonProps.C101_hosts",
    "Verif.Handlers.JsonProps.C101_every_host",
    "Verif.Handlers.JsonProps.C101_version0",
    "Verif.Handlers.JsonProps.C101_version1",
    "Verif.Handlers.JsonProps.C101_versions",
    "Verif.Handlers.JsonProps.C101_background_partial",
    "Verif.Handlers.JsonProps.C101_changed_object_fails",
    "Verif.Handlers.JsonProps.C101_tuple_fails",
    "Verif.Handlers.JsonProps.C101_number_keys_fails",
    "Verif.Handlers.JsonProps.C101_same_name_fails",
    "Verif.Handlers.JsonProps.C101_nonvacuous"
   ],
   "note": "The round trip is exact for JSON-native values and only for them (C101_round_trip); the object must not change until the background thread has written it (C101_background_partial). False otherwise: C101_changed_object_fails, C101_tuple_fails, C101_number_keys_fails, C101_same_name_fails."
  },
  {
   "property": "C102",
   "status": "partial",
   "theorems": [
    "Verif.Manager.MetricsProps.C102_list_partial",
    "Verif.Manager.MetricsProps.C102_best_partial",
    "Verif.Manager.MetricsProps.C102_reused_list_fails",
    "Verif.Manager.MetricsProps.C102_reused_deletes_best_fails",
    "Verif.Manager.MetricsProps.C102_changed_in_flight_fails",
    "Verif.Manager.MetricsProps.C102_nonvacuous"
   ],
   "note": "Holds for programs that do not change metrics given to a save; false for programs that update one dictionary: C102_reused_list_fails, C102_reused_deletes_best_fails, C102_changed_in_flight_fails."
  },
  {
   "property": "C103",
   "status": "partial",
   "theorems": [
    "Verif.Handlers.RandomKeyProps.C103_raw",
    "Verif.Handlers.RandomKeyProps.C103_typed_partial",
    "Verif.Handlers.RandomKeyProps.C103_other_implementation_fails",
    "Verif.Handlers.RandomKeyProps.C103_other_shape_fails",
    "Verif.Handlers.RandomKeyProps.C103_default_changed_fails",
    "Verif.Handlers.RandomKeyProps.C103_refused",
    "Verif.Handlers.RandomKeyProps.C103_numpy",
    "Verif.Handlers.RandomKeyProps.C103_nonvacuous"
   ],
   "note": "Holds for raw keys, NumPy states without inner tuples and typed keys of the default implementation; false for typed keys of other implementations: C103_other_implementation_fails, C103_other_shape_fails, C103_default_changed_fails."
  },
  {
   "property": "C104",
   "status": "partial",
   "theorems": [
    "Verif.Emergency.Handoff.C104_one_at_a_time",
    "Verif.Emergency.Handoff.C104_dataset",
    "Verif.Emergency.Handoff.C104_unanimous",
    "Verif.Emergency.Handoff.C104_payload",
    "Verif.Emergency.Handoff.C104_wait",
    "Verif.Emergency.Handoff.C104_close",
    "Verif.Emergency.Handoff.C104_poll",
    "Verif.Emergency.Handoff.C104_synchronous",
    "Verif.Emergency.Handoff.C104_errors",
    "Verif.Emergency.Handoff.C104_error_is_final_fails",
    "Verif.Emergency.Handoff.C104_dataset_waits_for_next_call_fails",
    "Verif.Emergency.Handoff.C104_declined_is_unnoticed_fails",
    "Verif.Emergency.Handoff.C104_latest_is_common",
    "Verif.Emergency.Handoff.C104_latest_partial",
    "Verif.Emergency.Handoff.C104_latest_of_many_fails",
    "Verif.Emergency.Handoff.C104_latest_without_dataset_fails",
    "Verif.Emergency.Handoff.C104_storage_errors",
    "Verif.Emergency.Handoff.C104_no_storage",
    "Verif.Emergency.Handoff.C104_nonvacuous",
    "Verif.Emergency.Handoff.C104_many_nonvacuous"
   ],
   "note": "Order, waiting, polling, payload and errors proved for all executions of one calling thread; false: a failure affects only that save (C104_error_is_final_fails), the latest step has its dataset state (C104_dataset_waits_for_next_call_fails, C104_latest_without_dataset_fails, C104_declined_is_unnoticed_fails), latest_step with more than 128 steps (C104_latest_of_many_fails)."
  },
  {
   "property": "C105",
   "status": "partial",
   "theorems": [
    "Verif.Emergency.Ranks.C105_standard",
    "Verif.Emergency.Ranks.C105_mutual",
    "Verif.Emergency.Ranks.C105_standard_refuses",
    "Verif.Emergency.Ranks.C105_one_per_slice",
    "Verif.Emergency.Ranks.C105_interleaved_slices_fails",
    "Verif.Emergency.Ranks.C105_order_independent",
    "Verif.Emergency.Ranks.C105_workers",
    "Verif.Emergency.Ranks.C105_worker_key",
    "Verif.Emergency.Ranks.C105_slice_major",
    "Verif.Emergency.Ranks.C105_accepts",
    "Verif.Emergency.Ranks.C105_peers",
    "Verif.Emergency.Ranks.C105_remap",
    "Verif.Emergency.Ranks.C105_nonvacuous",
    "Verif.Emergency.Ranks.C105_interleaved_nonvacuous",
    "Verif.Emergency.Ranks.C105_pathways_nonvacuous"
   ],
   "note": "Proved in full on Pathways, and on the standard path when the processes of a slice have consecutive indices; false otherwise (C105_interleaved_slices_fails)."
  },
  {
   "property": "C106",
   "status": "partial",
   "theorems": [
    "Verif.Emergency.Markers.C106_marker_name",
    "Verif.Emergency.Markers.C106_failure_raised",
    "Verif.Emergency.Markers.C106_restore",
    "Verif.Emergency.Markers.C106_no_checkpoint",
    "Verif.Emergency.Markers.C106_wait",
    "Verif.Emergency.Markers.C106_foreign_name_fails",
    "Verif.Emergency.Markers.C106_existing_directory_fails",
    "Verif.Emergency.Markers.C106_other_job_fails",
    "Verif.Emergency.Markers.C106_empty_failure_fails",
    "Verif.Emergency.Markers.C106_block",
    "Verif.Emergency.Markers.C106_request_taken",
    "Verif.Emergency.Markers.C106_order",
    "Verif.Emergency.Markers.C106_colocated_order",
    "Verif.Emergency.Markers.C106_decimal",
    "Verif.Emergency.Markers.C106_stale_failure_fails",
    "Verif.Emergency.Markers.C106_interval",
    "Verif.Emergency.Markers.C106_init_info",
    "Verif.Emergency.Markers.C106_partial_info_fails",
    "Verif.Emergency.Markers.C106_nonvacuous"
   ],
   "note": "Proved for well-formed markers of one job; false with markers of other jobs, foreign names, a directory in place, empty or old failure files and a half-written address file (the _fails theorems). The service acts between polls only."
  },
  {
   "property": "C107",
   "status": "partial",
   "theorems": [
    "Verif.Handlers.Places.C107_local_place",
    "Verif.Handlers.Places.C107_bucket_place",
    "Verif.Handlers.Places.C107_spelling",
    "Verif.Handlers.Places.C107_relative",
    "Verif.Handlers.Places.C107_own_database",
    "Verif.Handlers.Places.C107_process_id",
    "Verif.Handlers.Places.C107_merged_database",
    "Verif.Handlers.Places.C107_bad_process_id",
    "Verif.Handlers.Places.C107_direct",
    "Verif.Handlers.Places.C107_read_back",
    "Verif.Handlers.Places.C107_nothing_to_merge",
    "Verif.Handlers.Places.C107_validated",
    "Verif.Handlers.Places.C107_sharding_pointer",
    "Verif.Handlers.Places.C107_outside_fails",
    "Verif.Handlers.Places.C107_reserved_name_fails",
    "Verif.Handlers.Places.C107_absent_parameter_fails",
    "Verif.Handlers.Places.C107_zarr3_fails",
    "Verif.Handlers.Places.C107_metadata_key_fails",
    "Verif.Handlers.Places.C107_foreign_directory_fails",
    "Verif.Handlers.Places.C107_bucket_component_fails",
    "Verif.Handlers.Places.C107_nonvacuous"
   ],
   "note": "Proved for directories without special components and for names that do not begin with a slash; false otherwise, and validation is weaker than stated (the _fails theorems). TensorStore's own layout of an array (name, slash, file) is taken as given."
  },
  {
   "property": "C108",
   "status": "partial",
   "theorems": [
    "Verif.Handlers.Leaves.C108_options",
    "Verif.Handlers.Leaves.C108_stored",
    "Verif.Handlers.Leaves.C108_saved_iff",
    "Verif.Handlers.Leaves.C108_tree",
    "Verif.Handlers.Leaves.C108_number_iff",
    "Verif.Handlers.Leaves.C108_numpy",
    "Verif.Handlers.Leaves.C108_sharded_iff",
    "Verif.Handlers.Leaves.C108_padded",
    "Verif.Handlers.Leaves.C108_asked_partial",
    "Verif.Handlers.Leaves.C108_round_trip",
    "Verif.Handlers.Leaves.C108_metadata",
    "Verif.Handlers.Leaves.C108_metadata_target",
    "Verif.Handlers.Leaves.C108_numpy_shape_fails",
    "Verif.Handlers.Leaves.C108_numpy_scalar_fails",
    "Verif.Handlers.Leaves.C108_numpy_scalar_asked_fails",
    "Verif.Handlers.Leaves.C108_string_asked_fails",
    "Verif.Handlers.Leaves.C108_metadata_fails",
    "Verif.Handlers.Leaves.C108_integer_storage_fails",
    "Verif.Handlers.Leaves.C108_nonvacuous",
    "Verif.Handlers.Leaves.C108_laws_nonvacuous"
   ],
   "note": "Options, saving, round trips and the exact results of loading are proved; that loading gives what the abstract leaf names is false for shapes of NumPy arrays, NumPy scalars and str, and metadata cannot always be read (the _fails theorems). NumPy and Python conversions are parameters with laws; bytes leaves are not modelled."
  },
  {
   "property": "C109",
   "status": "partial",
   "theorems": [
    "Verif.Response.Props.C109_result",
    "Verif.Response.Props.C109_callback",
    "Verif.Response.Props.C109_callback_failure",
    "Verif.Response.Props.C109_callbacks_all",
    "Verif.Response.Props.C109_sequential",
    "Verif.Response.Props.C109_ends_partial",
    "Verif.Response.Props.C109_stopped_partial",
    "Verif.Response.Props.C109_settled_partial",
    "Verif.Response.Props.C109_failure_leak_fails",
    "Verif.Response.Props.C109_two_threads_fails",
    "Verif.Response.Props.C109_callback_result_fails",
    "Verif.Response.Props.C109_response_nonvacuous",
    "Verif.Runner.Props.C109_waits",
    "Verif.Runner.Props.C109_quiet",
    "Verif.Runner.Props.C109_accepts",
    "Verif.Runner.Props.C109_outcome",
    "Verif.Runner.Props.C109_returns",
    "Verif.Runner.Props.C109_cancels",
    "Verif.Runner.Props.C109_nowait_fails",
    "Verif.Runner.Props.C109_children_fails",
    "Verif.Runner.Props.C109_nonvacuous"
   ],
   "note": "Waiting shutdown, outcomes, results and callbacks are proved for all histories; that a non-waiting shutdown lets coroutines end, that all started tasks are waited for, that the thread always ends and that every caller gets the operation's answer are false (the _fails theorems). asyncio's loop, tasks and gather are modelled as a queue of callbacks; uvloop is assumed to behave alike."
  },
  {
   "property": "C110",
   "status": "partial",
   "theorems": [
    "Verif.Hns.Props.C110_ends",
    "Verif.Hns.Props.C110_only",
    "Verif.Hns.Props.C110_gone",
    "Verif.Hns.Props.C110_cleanup",
    "Verif.Hns.Props.C110_objects_safe",
    "Verif.Hns.Props.C110_rmtree",
    "Verif.Hns.Props.C110_sibling",
    "Verif.Hns.Props.are.C110_listing",
    "Verif.Hns.Props.are.C110_root_fails",
    "Verif.Hns.Props.are.C110_special_fails",
    "Verif.Hns.Props.are.C110_special_raises_fails",
    "Verif.Hns.Props.are.C110_nonvacuous"
   ],
   "note": "Proved for all directories below the root whose names have no ? or #; for the root and for such names the statement is false (the _fails theorems). The storage service is modelled as one bucket with folders and objects; removal of objects by epath is taken as correct."
  },
  {
   "property": "C111",
   "status": "partial",
   "theorems": [
    "Verif.Transport.C111_shows",
    "Verif.Transport.C111_shows_nonvacuous",
    "Verif.Transport.C111_lookup",
    "Verif.Transport.C111_ambiguous",
    "Verif.Transport.C111_resolve",
    "Verif.Transport.C111_missing",
    "Verif.Transport.C111_mesh",
    "Verif.Transport.C111_normalize",
    "Verif.Transport.C111_unique",
    "Verif.Transport.C111_sharding",
    "Verif.Transport.C111_leaf",
    "Verif.Transport.C111_tree",
    "Verif.Transport.C111_movable",
    "Verif.Transport.C111_back",
    "Verif.Transport.C111_zeros",
    "Verif.Transport.C111_zeros_nonvacuous",
    "Verif.Transport.C111_scalar_fails",
    "Verif.Transport.C111_invisible_fails",
    "Verif.Transport.C111_resolve_nonvacuous",
    "Verif.Transport.C111_mesh_nonvacuous",
    "Verif.Transport.C111_metadata_fails",
    "Verif.Transport.C111_unspecified_fails",
    "Verif.Transport.C111_tree_nonvacuous"
   ],
   "note": "Proved for all devices that the worker sees and all shardings given as such; for CPUs of other hosts, sharding metadata, missing shardings and arrays with dimensions the statement is false (the _fails theorems). JAX's map to host CPUs, pickling and device_put are modelled by their contract."
  },
  {
   "property": "C112",
   "status": "partial",
   "theorems": [
    "Verif.Transport.C112_once",
    "Verif.Transport.C112_call",
    "Verif.Transport.C112_result",
    "Verif.Transport.C112_runs",
    "Verif.Transport.C112_discard",
    "Verif.Transport.C112_devices",
    "Verif.Transport.C112_result_nonvacuous",
    "Verif.Transport.C112_discard_nonvacuous",
    "Verif.Transport.C112_devices_nonvacuous",
    "Verif.Transport.C112_empty_fails",
    "Verif.Transport.C112_empty_ran_fails",
    "Verif.Transport.C112_order_fails",
    "Verif.Transport.C112_number_fails",
    "Verif.Transport.C112_outside_fails"
   ],
   "note": "Proved for non-empty specifications and array inputs; otherwise false (the _fails theorems). Colocated Python is modelled by its contract: one list of devices, results as declared."
  },
  {
   "property": "C113",
   "status": "partial",
   "theorems": [
    "Verif.V1Save.C113_existing_kept",
    "Verif.V1Save.C113_existing_kept_nonvacuous",
    "Verif.V1Save.C113_all_refuse",
    "Verif.V1Save.C113_all_refuse_nonvacuous",
    "Verif.V1Save.C113_fresh_none_refused",
    "Verif.V1Save.C113_fresh_none_refused_nonvacuous",
    "Verif.V1Save.C113_created_after_all_looked",
    "Verif.V1Save.C113_created_after_all_looked_nonvacuous",
    "Verif.V1Save.C113_removed_only_when_overwriting",
    "Verif.V1Save.C113_removed_only_when_overwriting_nonvacuous",
    "Verif.V1Save.C113_fresh_finishes",
    "Verif.V1Save.C113_overwrite_outcomes_partial",
    "Verif.V1Save.C113_overwrite_finishes_partial",
    "Verif.V1Save.C113_overwrite_finishes_nonvacuous",
    "Verif.V1Save.C113_one_process_overwrites",
    "Verif.V1Save.C113_one_process_overwrites_nonvacuous",
    "Verif.V1Save.C113_overwrite_outcomes_nonvacuous",
    "Verif.V1Save.C113_overtaken_never_finishes_fails",
    "Verif.V1Save.C113_overwrite_hangs_fails",
    "Verif.V1Save.C113_directory_check_agrees",
    "Verif.V1Save.C113_directory_check_exact",
    "Verif.V1Save.C113_directory_check_nonvacuous"
   ],
   "note": "Holds without overwrite, with nothing at the destination and with one process. With overwrite and two or more processes it is false: the existence check and the removal are not separated by a barrier, so a process that looks after the removal waits at another barrier than the primary (C113_overwrite_hangs_fails, C113_overtaken_never_finishes_fails)."
  },
  {
   "property": "C114",
   "status": "partial",
   "theorems": [
    "Verif.V1Save.C114_committed_complete",
    "Verif.V1Save.C114_committed_complete_nonvacuous",
    "Verif.V1Save.C114_returned_is_committed",
    "Verif.V1Save.C114_returned_is_committed_nonvacuous",
    "Verif.V1Save.C114_returned_everywhere",
    "Verif.V1Save.C114_reader_sees_complete",
    "Verif.V1Save.C114_committed_stays",
    "Verif.V1Save.C114_committed_stays_nonvacuous",
    "Verif.V1Save.C114_failed_write_never_committed",
    "Verif.V1Save.C114_failed_write_never_committed_nonvacuous",
    "Verif.V1Save.C114_unsynchronized_handler_fails",
    "Verif.V1Save.C114_unsynchronized_handler_nonvacuous"
   ],
   "note": "Proved for handlers that wait for the other processes, as PyTreeHandler does. False for handlers that do not (C114_unsynchronized_handler_fails)."
  },
  {
   "property": "C115",
   "status": "partial",
   "theorems": [
    "Verif.V1Keys.C115_keys_distinct_partial",
    "Verif.V1Keys.C115_keys_distinct_nonvacuous",
    "Verif.V1Keys.C115_finalize_twice_fails",
    "Verif.V1Keys.C115_async_load_timing_fails",
    "Verif.V1Keys.C115_two_async_loads_fails",
    "Verif.V1Keys.C115_prefix_separates_partial",
    "Verif.V1Keys.C115_prefix_separates_nonvacuous",
    "Verif.V1Keys.C115_prefix_ignored_fails",
    "Verif.V1Keys.C115_barriers_for_members",
    "Verif.V1Keys.C115_barriers_for_members_nonvacuous",
    "Verif.V1Keys.C115_subset_waits_for_all_fails",
    "Verif.V1Keys.C115_single_process_never_waits"
   ],
   "note": "False in four ways, each proved: finalizing twice reuses keys (C115_finalize_twice_fails); an asynchronous load's last key depends on timing (C115_async_load_timing_fails, C115_two_async_loads_fails); PyTree keys ignore the prefix (C115_prefix_ignored_fails); a save by a subset of processes waits for all of them (C115_subset_waits_for_all_fails). Waits inside leaf handlers are not modelled."
  },
  {
   "property": "C116",
   "status": "partial",
   "theorems": [
    "Verif.PartialFin.C116_agreement",
    "Verif.PartialFin.C116_returned_is_published",
    "Verif.PartialFin.C116_raised_publishes_nothing",
    "Verif.PartialFin.C116_all_or_nothing",
    "Verif.PartialFin.C116_all_or_nothing_nonvacuous",
    "Verif.PartialFin.C116_ends_everywhere_partial",
    "Verif.PartialFin.C116_ends_everywhere_nonvacuous",
    "Verif.PartialFin.C116_subset_never_returns_fails",
    "Verif.PartialFin.C116_subset_published_fails",
    "Verif.PartialFin.C116_escaped_error_fails",
    "Verif.PartialFin.C116_escaped_error_nonvacuous"
   ],
   "note": "False in two ways, each proved for all schedules: with a proper subset of active processes the call never returns (C116_subset_never_returns_fails, C116_subset_published_fails); an escaping error of the merge leaves the other processes waiting (C116_escaped_error_fails). `primary_host=None` is not modelled; what the merge does is C61."
  },
  {
   "property": "C117",
   "status": "partial",
   "theorems": [
    "Verif.Handlers.ArrayArgs.C117_conflicting_shapes",
    "Verif.Handlers.ArrayArgs.C117_shape_in_arguments",
    "Verif.Handlers.ArrayArgs.C117_shape_in_target_partial",
    "Verif.Handlers.ArrayArgs.C117_not_strict",
    "Verif.Handlers.ArrayArgs.C117_dtype_in_arguments",
    "Verif.Handlers.ArrayArgs.C117_constructed",
    "Verif.Handlers.ArrayArgs.C117_scalar_dtype_fails",
    "Verif.Handlers.ArrayArgs.C117_scalar_shape_fails",
    "Verif.Handlers.ArrayArgs.C117_target_ignored_fails",
    "Verif.Handlers.ArrayArgs.C117_nonvacuous"
   ],
   "note": "False of the code for targets without axes (C117_scalar_dtype_fails, C117_scalar_shape_fails) and, without strict, for all targets (C117_target_ignored_fails); what holds is proved for all other cases. Random keys and layouts are not modelled."
  },
  {
   "property": "C118",
   "status": "proved",
   "theorems": [
    "Verif.Handlers.Batches.C118_which_handler",
    "Verif.Handlers.Batches.C118_batches",
    "Verif.Handlers.Batches.C118_saved_once",
    "Verif.Handlers.Batches.C118_restored_at_key",
    "Verif.Handlers.Batches.C118_filtered",
    "Verif.Handlers.Batches.C118_short_batch_fails",
    "Verif.Handlers.Batches.C118_nonvacuous"
   ],
   "note": "Proved for all trees and registries, for handlers that restore each leaf on its own; a handler that returns too few values is a finding about handlers outside this contract (C118_short_batch_fails)."
  },
  {
   "property": "C119",
   "status": "partial",
   "theorems": [
    "Verif.V1.C119_names",
    "Verif.V1.C119_saved",
    "Verif.V1.C119_load_with_metadata",
    "Verif.V1.C119_same_tree",
    "Verif.V1.C119_state",
    "Verif.V1.C119_single_tree",
    "Verif.V1.C119_all_handlers_needed_fails",
    "Verif.V1.C119_error_hidden_fails",
    "Verif.V1.C119_described_not_loaded_fails",
    "Verif.V1.C119_nonvacuous"
   ],
   "note": "The last part is false in three ways (C119_all_handlers_needed_fails, C119_error_hidden_fails, C119_described_not_loaded_fails); the rest is proved. Time stamps and custom metadata are passed on unchanged and not modelled."
  },
  {
   "property": "C120",
   "status": "partial",
   "theorems": [
    "Verif.Handlers.ArrayWrites.C120_refused",
    "Verif.Handlers.ArrayWrites.C120_complete",
    "Verif.Handlers.ArrayWrites.C120_snapshot",
    "Verif.Handlers.ArrayWrites.C120_contract",
    "Verif.Handlers.ArrayWrites.C120_callbacks",
    "Verif.Handlers.ArrayWrites.C120_callbacks_dispatched",
    "Verif.Handlers.ArrayWrites.C120_all_told",
    "Verif.Handlers.ArrayWrites.C120_before_return",
    "Verif.Handlers.ArrayWrites.C120_order",
    "Verif.Handlers.ArrayWrites.C120_counted",
    "Verif.Handlers.ArrayWrites.C120_budget",
    "Verif.Handlers.ArrayWrites.C120_atomic",
    "Verif.Handlers.ArrayWrites.C120_can_finish",
    "Verif.Handlers.ArrayWrites.C120_lost_fails",
    "Verif.Handlers.ArrayWrites.C120_sync_not_done_fails",
    "Verif.Handlers.ArrayWrites.C120_transfer_end_early_fails",
    "Verif.Handlers.ArrayWrites.C120_together_fails",
    "Verif.Handlers.ArrayWrites.C120_contract_needed",
    "Verif.Handlers.ArrayWrites.C120_nonvacuous"
   ],
   "note": "Proved except for four findings (C120_lost_fails, C120_sync_not_done_fails, C120_transfer_end_early_fails, C120_together_fails); the memory limit is proved when every worker holds a part of every array, as in C31."
  },
  {
   "property": "C121",
   "status": "partial",
   "theorems": [
    "Verif.Emergency.SingleReplica.C121_value",
    "Verif.Emergency.SingleReplica.C121_tree",
    "Verif.Emergency.SingleReplica.C121_roles",
    "Verif.Emergency.SingleReplica.C121_dispatcher",
    "Verif.Emergency.SingleReplica.C121_mixed_accepted_fails",
    "Verif.Emergency.SingleReplica.C121_mixed_corrupts_fails",
    "Verif.Emergency.SingleReplica.C121_other_mesh_fails",
    "Verif.Emergency.SingleReplica.C121_diverge_fails",
    "Verif.Emergency.SingleReplica.C121_key_not_wrapped_fails",
    "Verif.Emergency.SingleReplica.C121_dtype_fails",
    "Verif.Emergency.SingleReplica.C121_one_axis_fails",
    "Verif.Emergency.SingleReplica.C121_nonvacuous"
   ],
   "note": "Values, order and roles proved under the documented assumption on hosts; refusal of other shardings, types, random keys, arrays on several meshes, and meshes with one axis are findings (C121_mixed_accepted_fails, C121_mixed_corrupts_fails, C121_other_mesh_fails, C121_diverge_fails, C121_key_not_wrapped_fails, C121_dtype_fails, C121_one_axis_fails). The deprecated single_replica_sharding argument is not modelled."
  },
  {
   "property": "C122",
   "status": "partial",
   "theorems": [
    "Verif.Handlers.Pathways.C122_each",
    "Verif.Handlers.Pathways.C122_one_request_per_mesh",
    "Verif.Handlers.Pathways.C122_types",
    "Verif.Handlers.Pathways.C122_written",
    "Verif.Handlers.Pathways.C122_roundtrip",
    "Verif.Handlers.Pathways.C122_done",
    "Verif.Handlers.Pathways.C122_failure_raised",
    "Verif.Handlers.Pathways.C122_can_finish",
    "Verif.Handlers.Pathways.C122_handler",
    "Verif.Handlers.Pathways.C122_unreadable_fails",
    "Verif.Handlers.Pathways.C122_location_fails",
    "Verif.Handlers.Pathways.C122_other_impl_fails",
    "Verif.Handlers.Pathways.C122_key_without_shape_fails",
    "Verif.Handlers.Pathways.C122_key_as_words_fails",
    "Verif.Handlers.Pathways.C122_metadata_of_all_fails",
    "Verif.Handlers.Pathways.C122_started_fails",
    "Verif.Handlers.Pathways.C122_late_writes_fails",
    "Verif.Handlers.Pathways.C122_registration_fails",
    "Verif.Handlers.Pathways.C122_meta_type_fails",
    "Verif.Handlers.Pathways.C122_nonvacuous"
   ],
   "note": "Proved for the types the service can name, arrays of one directory and keys asked for with their shape; otherwise findings (C122_unreadable_fails, C122_location_fails, C122_other_impl_fails, C122_key_without_shape_fails, C122_key_as_words_fails, C122_metadata_of_all_fails, C122_started_fails, C122_late_writes_fails, C122_registration_fails, C122_meta_type_fails). The service is a hypothesis: a table that refuses other shapes."
  },
  {
   "property": "C123",
   "status": "partial",
   "theorems": [
    "Verif.Deleter.Parallel.C123_gone",
    "Verif.Deleter.Parallel.C123_outside",
    "Verif.Deleter.Parallel.C123_parallel",
    "Verif.Deleter.Parallel.C123_idle",
    "Verif.Deleter.Parallel.C123_no_false_alarm",
    "Verif.Deleter.Parallel.C123_threads",
    "Verif.Deleter.Parallel.C123_can_finish",
    "Verif.Deleter.Parallel.C123_deletes",
    "Verif.Deleter.Parallel.C123_permanently",
    "Verif.Deleter.Parallel.C123_choice",
    "Verif.Deleter.Parallel.C123_link_fails",
    "Verif.Deleter.Parallel.C123_hang_fails",
    "Verif.Deleter.Parallel.C123_remote_fails",
    "Verif.Deleter.Parallel.C123_nonvacuous"
   ],
   "note": "Proved for directories whose scan raises nothing but OSErrors of scandir; otherwise findings (C123_link_fails, C123_hang_fails, C123_remote_fails). Other programs that change the directory at the same time, and two calls at once on one deleter, are not modelled."
  },
  {
   "property": "C124",
   "status": "partial",
   "theorems": [
    "Verif.Futures.SyncValue.C124_order",
    "Verif.Futures.SyncValue.C124_returned",
    "Verif.Futures.SyncValue.C124_agree",
    "Verif.Futures.SyncValue.C124_not_early",
    "Verif.Futures.SyncValue.C124_can_finish",
    "Verif.Futures.SyncValue.C124_timeout_fails",
    "Verif.Futures.SyncValue.C124_mismatch_fails",
    "Verif.Futures.SyncValue.C124_get_waits_fails",
    "Verif.Futures.SyncValue.C124_nonvacuous"
   ],
   "note": "Proved as long as the reading process has had no error and all processes set the same values; otherwise findings (C124_timeout_fails, C124_mismatch_fails, C124_get_waits_fails). That a raising save leaves the value True is C08_in_progress_stuck_fails."
  },
  {
   "property": "C125",
   "status": "partial",
   "theorems": [
    "Verif.Export.Obm.C125_accepted",
    "Verif.Export.Obm.C125_functions",
    "Verif.Export.Obm.C125_shared",
    "Verif.Export.Obm.C125_params",
    "Verif.Export.Obm.C125_kwargs",
    "Verif.Export.Obm.C125_default",
    "Verif.Export.Obm.C125_both_refused",
    "Verif.Export.Obm.C125_inner_refused",
    "Verif.Export.Obm.C125_tf",
    "Verif.Export.Obm.C125_save_shlo_fails",
    "Verif.Export.Obm.C125_loader_type_fails",
    "Verif.Export.Obm.C125_weights_name_fails",
    "Verif.Export.Obm.C125_extra_options_fails",
    "Verif.Export.Obm.C125_kwargs_ignored_fails",
    "Verif.Export.Obm.C125_other_export_fails",
    "Verif.Export.Obm.C125_python_float_fails",
    "Verif.Export.Obm.C125_nonvacuous"
   ],
   "note": "Proved: acceptance exactly when in order, contents, shared options, parameters, kwargs. The documented parts that are false are findings: C125_save_shlo_fails, C125_loader_type_fails, C125_weights_name_fails, C125_extra_options_fails, C125_kwargs_ignored_fails, C125_other_export_fails, C125_python_float_fails."
  },
  {
   "property": "C126",
   "status": "partial",
   "theorems": [
    "Verif.Tiering.Auth.C126_token",
    "Verif.Tiering.Auth.C126_reserve",
    "Verif.Tiering.Auth.C126_finalize",
    "Verif.Tiering.Auth.C126_prefetch",
    "Verif.Tiering.Auth.C126_delete",
    "Verif.Tiering.Auth.C126_denied",
    "Verif.Tiering.Auth.C126_anonymous",
    "Verif.Tiering.Auth.C126_error_no_change",
    "Verif.Tiering.Auth.C126_any_token_fails",
    "Verif.Tiering.Auth.C126_keep_alive_fails",
    "Verif.Tiering.Auth.C126_info_fails",
    "Verif.Tiering.Auth.C126_existence_fails",
    "Verif.Tiering.Auth.C126_prefetch_write_fails",
    "Verif.Tiering.Auth.C126_nonvacuous"
   ],
   "note": "Proved for Reserve, Finalize, Prefetch and Delete for every implementation of the checks; the keep-alive calls and Info are unchecked and the checks are stubs (C126_any_token_fails, C126_keep_alive_fails, C126_info_fails, C126_existence_fails, C126_prefetch_write_fails). Anonymous deletes need that assets have a tier path."
  },
  {
   "property": "C127",
   "status": "partial",
   "theorems": [
    "Verif.Tiering.Transfer.C127_client",
    "Verif.Tiering.Transfer.C127_lustre_to_lustre_fails",
    "Verif.Tiering.Transfer.C127_inside_lustre",
    "Verif.Tiering.Transfer.C127_import",
    "Verif.Tiering.Transfer.C127_export",
    "Verif.Tiering.Transfer.C127_between_buckets",
    "Verif.Tiering.Transfer.C127_no_slash_fails",
    "Verif.Tiering.Transfer.C127_mount_point",
    "Verif.Tiering.Transfer.C127_mount_point_fails",
    "Verif.Tiering.Transfer.C127_request_id_fails",
    "Verif.Tiering.Transfer.C127_once",
    "Verif.Tiering.Transfer.C127_same_request",
    "Verif.Tiering.Transfer.C127_completed",
    "Verif.Tiering.Transfer.C127_completes",
    "Verif.Tiering.Transfer.C127_failed",
    "Verif.Tiering.Transfer.C127_fails",
    "Verif.Tiering.Transfer.C127_transient",
    "Verif.Tiering.Transfer.C127_in_progress",
    "Verif.Tiering.Transfer.C127_requested",
    "Verif.Tiering.Transfer.C127_progress",
    "Verif.Tiering.Transfer.C127_garbled_fails",
    "Verif.Tiering.Transfer.C127_lost_reply_fails",
    "Verif.Tiering.Transfer.C127_twice_fails",
    "Verif.Tiering.Transfer.C127_detail_replaces_fails",
    "Verif.Tiering.Transfer.C127_wrong_type_fails",
    "Verif.Tiering.Transfer.C127_nonvacuous"
   ],
   "note": "Proved for every history in which workers do not die between requesting and saving and replies leave the identifying keys alone; both are needed (C127_twice_fails, C127_request_id_fails, C127_detail_replaces_fails, C127_wrong_type_fails). A reply that cannot be read fails the job (C127_garbled_fails), so does any exception of the request (C127_lost_reply_fails)."
  },
  {
   "property": "C128",
   "status": "partial",
   "theorems": [
    "Verif.Path.Format.C128_exact",
    "Verif.Path.Format.C128_step",
    "Verif.Path.Format.C128_plain",
    "Verif.Path.Format.C128_item",
    "Verif.Path.Format.C128_old_step",
    "Verif.Path.Format.C128_root",
    "Verif.Path.Format.C128_zarr3_fails",
    "Verif.Path.Format.C128_strings_fails",
    "Verif.Path.Format.C128_root_fails",
    "Verif.Path.Format.C128_item_name_fails",
    "Verif.Path.Format.C128_unfinished_fails",
    "Verif.Path.Format.C128_foreign_fails",
    "Verif.Path.Format.C128_nonvacuous"
   ],
   "note": "Characterized for all directories (C128_exact). The English claim fails for trees in the newer array format without a database, trees without arrays, roots that hold directories of plain checkpointers or items called `checkpoint`, unfinished directories and foreign ones (C128_*_fails)."
  },
  {
   "property": "C129",
   "status": "proved",
   "theorems": [
    "Verif.Tiering.Config.C129_exact",
    "Verif.Tiering.Config.C129_mapping",
    "Verif.Tiering.Config.C129_backends",
    "Verif.Tiering.Config.C129_required",
    "Verif.Tiering.Config.C129_defaults",
    "Verif.Tiering.Config.C129_keys",
    "Verif.Tiering.Config.C129_misspelled_fails",
    "Verif.Tiering.Config.C129_interval_fails",
    "Verif.Tiering.Config.C129_no_jobs_fails",
    "Verif.Tiering.Config.C129_two_intervals_fails",
    "Verif.Tiering.Config.C129_null_fails",
    "Verif.Tiering.Config.C129_empty_list_fails",
    "Verif.Tiering.Config.C129_place_fails",
    "Verif.Tiering.Config.C129_letters_fails",
    "Verif.Tiering.Config.C129_nonvacuous"
   ],
   "note": "Equivalence for all values (C129_exact). Values that the specification accepts although a user would not want them are stated as findings (C129_*_fails)."
  },
  {
   "property": "C130",
   "status": "partial",
   "theorems": [
    "Verif.Export.Processor.C130_once",
    "Verif.Export.Processor.C130_retry",
    "Verif.Export.Processor.C130_inputs",
    "Verif.Export.Processor.C130_accepts",
    "Verif.Export.Processor.C130_symbols",
    "Verif.Export.Processor.C130_independent",
    "Verif.Export.Processor.C130_saved",
    "Verif.Export.Processor.C130_options",
    "Verif.Export.Processor.C130_saves",
    "Verif.Export.Processor.C130_batch_fails",
    "Verif.Export.Processor.C130_collision_fails",
    "Verif.Export.Processor.C130_rank_fails",
    "Verif.Export.Processor.C130_outside_fails",
    "Verif.Export.Processor.C130_weights_fails",
    "Verif.Export.Processor.C130_nonvacuous"
   ],
   "note": "Proved except where false: unknown first sizes are never independent (C130_batch_fails), generated symbols may coincide with the user's (C130_collision_fails), absolute paths leave the model (C130_outside_fails)."
  },
  {
   "property": "C131",
   "status": "partial",
   "theorems": [
    "Verif.Export.DTensor.C131_faithful",
    "Verif.Export.DTensor.C131_layout",
    "Verif.Export.DTensor.C131_unchanged",
    "Verif.Export.DTensor.C131_not_allowed",
    "Verif.Export.DTensor.C131_accepts",
    "Verif.Export.DTensor.C131_consolidated",
    "Verif.Export.DTensor.C131_refuses",
    "Verif.Export.DTensor.C131_tree",
    "Verif.Export.DTensor.C131_scoped",
    "Verif.Export.DTensor.C131_none_fails",
    "Verif.Export.DTensor.C131_mesh_fails",
    "Verif.Export.DTensor.C131_empty_name_fails",
    "Verif.Export.DTensor.C131_nonvacuous"
   ],
   "note": "Proved for axes with non-empty names; for an axis named with the empty text wrong values are packed (C131_empty_name_fails). That local pieces are listed in the same device order by JAX and DTensor is assumed."
  },
  {
   "property": "C132",
   "status": "partial",
   "theorems": [
    "Verif.Handlers.Snapshot.C132_snapshot",
    "Verif.Handlers.Snapshot.C132_failed",
    "Verif.Handlers.Snapshot.C132_documents",
    "Verif.Handlers.Snapshot.C132_finishes",
    "Verif.Handlers.Snapshot.C132_refused",
    "Verif.Handlers.Snapshot.C132_metrics",
    "Verif.Handlers.Snapshot.C132_json_fails",
    "Verif.Handlers.Snapshot.C132_proto_fails",
    "Verif.Handlers.Snapshot.C132_reused_metrics_fails",
    "Verif.Handlers.Snapshot.C132_nonvacuous"
   ],
   "note": "Proved for arrays, numpy arrays, scalars and texts (C132_snapshot, C132_failed). False for documents, protocol buffers and metrics (C132_json_fails, C132_proto_fails, C132_reused_metrics_fails); for these it is proved if the program leaves the object alone until it is written (C132_documents, C132_metrics)."
  },
  {
   "property": "C133",
   "status": "partial",
   "theorems": [
    "Verif.ManagerItems.C133_refused",
    "Verif.ManagerItems.C133_constructed",
    "Verif.ManagerItems.C133_items",
    "Verif.ManagerItems.C133_names_deprecated_form_fails",
    "Verif.ManagerItems.C133_fixed",
    "Verif.ManagerItems.C133_first_save",
    "Verif.ManagerItems.C133_first_restore",
    "Verif.ManagerItems.C133_wrong_args",
    "Verif.ManagerItems.C133_one_kind",
    "Verif.ManagerItems.C133_written",
    "Verif.ManagerItems.C133_other_steps",
    "Verif.ManagerItems.C133_existing",
    "Verif.ManagerItems.C133_unlisted",
    "Verif.ManagerItems.C133_roundtrip_unnamed",
    "Verif.ManagerItems.C133_roundtrip_named_partial",
    "Verif.ManagerItems.C133_legacy_unnamed",
    "Verif.ManagerItems.C133_legacy_named",
    "Verif.ManagerItems.C133_legacy_restore",
    "Verif.ManagerItems.C133_legacy_restore_named",
    "Verif.ManagerItems.C133_latest",
    "Verif.ManagerItems.C133_metadata",
    "Verif.ManagerItems.C133_refused_call_fails",
    "Verif.ManagerItems.C133_missing_step_fails",
    "Verif.ManagerItems.C133_default_name_fails",
    "Verif.ManagerItems.C133_metrics_name_fails",
    "Verif.ManagerItems.C133_both_fails",
    "Verif.ManagerItems.C133_legacy_open_fails",
    "Verif.ManagerItems.C133_refused_removes_fails",
    "Verif.ManagerItems.C133_nonvacuous",
    "Verif.ManagerItems.C133_findings_nonvacuous"
   ],
   "note": "Proved: refusal of contradictory constructors, fixed way of use, one kind of checkpoints, round trips, equivalence of the deprecated form, latest step, metadata. False: refused calls have effects (C133_refused_call_fails, C133_missing_step_fails, C133_refused_removes_fails), the names \"default\" and \"metrics\" (C133_default_name_fails, C133_metrics_name_fails), items with args (C133_both_fails), the deprecated form without handlers (C133_legacy_open_fails)."
  },
  {
   "property": "C134",
   "status": "partial",
   "theorems": [
    "Verif.ExportConfig.C134_value",
    "Verif.ExportConfig.C134_isolated",
    "Verif.ExportConfig.C134_restored",
    "Verif.ExportConfig.C134_hooks",
    "Verif.ExportConfig.C134_global_hook",
    "Verif.ExportConfig.C134_defined",
    "Verif.ExportConfig.C134_new",
    "Verif.ExportConfig.C134_others",
    "Verif.ExportConfig.C134_env",
    "Verif.ExportConfig.C134_read_fails",
    "Verif.ExportConfig.C134_all_configs_fails",
    "Verif.ExportConfig.C134_undefine_fails",
    "Verif.ExportConfig.C134_hook_raises_fails",
    "Verif.ExportConfig.C134_order_fails",
    "Verif.ExportConfig.C134_nonvacuous"
   ],
   "note": "Proved: value in force, isolation of threads, restoration, hooks, single definition, environment. False: read() ignores blocks (C134_read_fails), a block overrides the option of all Config objects (C134_all_configs_fails), undefining in one Config breaks the others (C134_undefine_fails), a hook that raises on entering leaves the override in force (C134_hook_raises_fails), blocks left out of order leave an override behind (C134_order_fails)."
  },
  {
   "property": "C135",
   "status": "partial",
   "theorems": [
    "Verif.Store.C135_mode",
    "Verif.Store.C135_save_mode",
    "Verif.Store.C135_told_apart",
    "Verif.Store.C135_v0_v1",
    "Verif.Store.C135_survives",
    "Verif.Store.C135_only_complete",
    "Verif.Store.C135_cleanup",
    "Verif.Store.C135_retry",
    "Verif.Store.C135_legacy",
    "Verif.Store.C135_old_checkpoint_fails",
    "Verif.Store.C135_interrupted_fails",
    "Verif.Store.C135_leftover_fails",
    "Verif.Store.C135_link_fails",
    "Verif.Store.C135_delete_fails",
    "Verif.Store.C135_nonvacuous"
   ],
   "note": "Proved: mode in force, survival for every reader, completeness of what is seen (commit-file readers without the flag, or only renaming writers), clean-up, retry, agreement of V0 and V1 except for links, the legacy flag. False: an interrupted save with commit files is finished, without data, for readers with default options or the flag and blocks the step (C135_interrupted_fails), switching to commit files without the flag deletes complete old checkpoints (C135_old_checkpoint_fails), left-overs of renames with a commit file are never cleaned (C135_leftover_fails), V1 reads a link to an incomplete checkpoint (C135_link_fails), delete ignores the options (C135_delete_fails)."
  },
  {
   "property": "C136",
   "status": "partial",
   "theorems": [
    "Verif.HandlerTypes.C136_name",
    "Verif.HandlerTypes.C136_refused",
    "Verif.HandlerTypes.C136_refused_names",
    "Verif.HandlerTypes.C136_args",
    "Verif.HandlerTypes.C136_restores",
    "Verif.HandlerTypes.C136_roundtrip",
    "Verif.HandlerTypes.C136_unknown",
    "Verif.HandlerTypes.C136_refused_fails",
    "Verif.HandlerTypes.C136_same_name_fails",
    "Verif.HandlerTypes.C136_shared_args_fails",
    "Verif.HandlerTypes.C136_nonvacuous"
   ],
   "note": "Proved: meaning of names, refusals, restoration without arguments, round trip between programs, error for unknown handlers. False: a refused registration still binds its arguments to the refused class (C136_refused_fails), of two classes made under one qualified name the last restores what the first saved (C136_same_name_fails), arguments shared by two handlers lead to the wrong handler (C136_shared_args_fails)."
  },
  {
   "property": "C137",
   "status": "partial",
   "theorems": [
    "Verif.CompositeMap.C137_refused",
    "Verif.CompositeMap.C137_items",
    "Verif.CompositeMap.C137_attr",
    "Verif.CompositeMap.C137_or",
    "Verif.CompositeMap.C137_and",
    "Verif.CompositeMap.C137_dict",
    "Verif.CompositeMap.C137_attribute_fails",
    "Verif.CompositeMap.C137_order_fails",
    "Verif.CompositeMap.C137_nonvacuous"
   ],
   "note": "Proved: refusal, items, attributes, union, intersection, dictionaries. Not as expected of a mapping object: a missing attribute raises KeyError so that hasattr raises (C137_attribute_fails), the order of the items of a & b is not determined (C137_order_fails)."
  },
  {
   "property": "C138",
   "status": "partial",
   "theorems": [
    "Verif.Emergency.ChunkDebug.C138_accepts",
    "Verif.Emergency.ChunkDebug.C138_same_elements",
    "Verif.Emergency.ChunkDebug.C138_inverse",
    "Verif.Emergency.ChunkDebug.C138_number_refused",
    "Verif.Emergency.ChunkDebug.C138_disjoint",
    "Verif.Emergency.ChunkDebug.C138_listed",
    "Verif.Emergency.ChunkDebug.C138_other_rank",
    "Verif.Emergency.ChunkDebug.C138_report",
    "Verif.Emergency.ChunkDebug.C138_complete",
    "Verif.Emergency.ChunkDebug.C138_refused",
    "Verif.Emergency.ChunkDebug.C138_other_devices",
    "Verif.Emergency.ChunkDebug.C138_repeated_fails",
    "Verif.Emergency.ChunkDebug.C138_scalar_fails",
    "Verif.Emergency.ChunkDebug.C138_empty_fails",
    "Verif.Emergency.ChunkDebug.C138_small_chunks_fails",
    "Verif.Emergency.ChunkDebug.C138_nonvacuous"
   ],
   "note": "Proved: numbers and indices, keys, present and missing chunks, refusals, devices of other processes. False of the code: a shard is listed once for every local device that holds it (C138_repeated_fails), a scalar in Zarr 2 and an array without elements raise (C138_scalar_fails, C138_empty_fails), and with chunks smaller than shards a shard of which nothing is stored goes unreported (C138_small_chunks_fails)."
  },
  {
   "property": "C139",
   "status": "partial",
   "theorems": [
    "Verif.Emergency.PeerSaves.C139_cadence",
    "Verif.Emergency.PeerSaves.C139_should_save",
    "Verif.Emergency.PeerSaves.C139_refused",
    "Verif.Emergency.PeerSaves.C139_forced",
    "Verif.Emergency.PeerSaves.C139_bounded",
    "Verif.Emergency.PeerSaves.C139_persistent_stays",
    "Verif.Emergency.PeerSaves.C139_increasing",
    "Verif.Emergency.PeerSaves.C139_oldest_go",
    "Verif.Emergency.PeerSaves.C139_all_steps",
    "Verif.Emergency.PeerSaves.C139_deleted",
    "Verif.Emergency.PeerSaves.C139_delete_fails",
    "Verif.Emergency.PeerSaves.C139_deleted_raises_fails",
    "Verif.Emergency.PeerSaves.C139_not_persisted_fails",
    "Verif.Emergency.PeerSaves.C139_half_saved_fails",
    "Verif.Emergency.PeerSaves.C139_should_save_existing_fails",
    "Verif.Emergency.PeerSaves.C139_interval_zero",
    "Verif.Emergency.PeerSaves.C139_nonvacuous"
   ],
   "note": "Proved: schedules, answers, bounds, retention, persistence, all_steps, deletions. False of the code: a step only in persistent storage cannot be deleted (C139_delete_fails), deleting one only in local storage removes it and raises (C139_deleted_raises_fails), forcing a step that one storage has raises and leaves the other without it or half done (C139_not_persisted_fails, C139_half_saved_fails), and after a forced earlier step should_save may say True of a stored one (C139_should_save_existing_fails). Writes that fail and asynchronous completion are modelled in other claims."
  },
  {
   "property": "C140",
   "status": "partial",
   "theorems": [
    "Verif.Trees.Nesting.C140_parts",
    "Verif.Trees.Nesting.C140_accepts",
    "Verif.Trees.Nesting.C140_places",
    "Verif.Trees.Nesting.C140_caller",
    "Verif.Trees.Nesting.C140_target",
    "Verif.Trees.Nesting.C140_target_caller",
    "Verif.Trees.Nesting.C140_mapping",
    "Verif.Trees.Nesting.C140_lost_fails",
    "Verif.Trees.Nesting.C140_target_collision_fails",
    "Verif.Trees.Nesting.C140_nonvacuous"
   ],
   "note": "Proved: acceptance, places, target with defaults, the caller's dictionary. False of the code: in-place work that raises has already taken parameters (C140_lost_fails), and a target with the separator in a key may make every call raise (C140_target_collision_fails). Parameters that are themselves dictionaries are not modelled."
  },
  {
   "property": "C141",
   "status": "partial",
   "theorems": [
    "Verif.Metadata.ValueEq.C141_alike",
    "Verif.Metadata.ValueEq.C141_array_scalar",
    "Verif.Metadata.ValueEq.C141_equivalence",
    "Verif.Metadata.ValueEq.C141_symmetric",
    "Verif.Metadata.ValueEq.C141_wrapped",
    "Verif.Metadata.ValueEq.C141_plain_fails",
    "Verif.Metadata.ValueEq.C141_scalar_storage_fails",
    "Verif.Metadata.ValueEq.C141_nonvacuous"
   ],
   "note": "Proved for arrays, scalars, strings and wrapped metadata. False of the code: plain metadata are equal to any plain or wrapped metadata, so that equality is not transitive (C141_plain_fails), and scalars stored differently are equal (C141_scalar_storage_fails)."
  },
  {
   "property": "C142",
   "status": "partial",
   "theorems": [
    "Verif.Trees.Inferred.C142_accepts",
    "Verif.Trees.Inferred.C142_leaves",
    "Verif.Trees.Inferred.C142_name",
    "Verif.Trees.Inferred.C142_older_name",
    "Verif.Trees.Inferred.C142_files",
    "Verif.Trees.Inferred.C142_others",
    "Verif.Trees.Inferred.C142_order",
    "Verif.Trees.Inferred.C142_nonvacuous",
    "Verif.Trees.Inferred.C142_other_files_fails",
    "Verif.Trees.Inferred.C142_strings_fails"
   ],
   "note": "Proved as stated. False of the code: files that hold no parameter but are not among the reserved names, such as that of strings, are taken for parameters (C142_other_files_fails), and strings that were not made as placeholders may be taken for some (C142_strings_fails)."
  },
  {
   "property": "C143",
   "status": "partial",
   "theorems": [
    "Verif.Emergency.Wire.C143_inside_partial",
    "Verif.Emergency.Wire.C143_answer_partial",
    "Verif.Emergency.Wire.C143_transfer",
    "Verif.Emergency.Wire.C143_received_partial",
    "Verif.Emergency.Wire.C143_refused_partial",
    "Verif.Emergency.Wire.C143_nonvacuous",
    "Verif.Emergency.Wire.C143_substitute_fails"
   ],
   "note": "Proved if the working directory of the server has no file with one of the two substitute names. Without this it is false of the code: a refused request is answered with such a file (C143_substitute_fails). Symbolic links are not modelled."
  }
 ]
}