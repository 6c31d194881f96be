{"id": "C01", "title": "LatestN keeps exactly the newest n", "statement": "LatestN(n).should_preserve returns one flag per checkpoint; the flag of position i is True iff fewer than n checkpoints follow it (all True when n is None).", "quantifier": "every n>=0 or None, every checkpoint list of any length", "why_tests_cant": "A test fixes a handful of list lengths and n; an off-by-one at any other length silently deletes a user checkpoint.", "anchors": ["checkpoint/orbax/checkpoint/_src/checkpoint_managers/preservation_policy.py::LatestN"]}
{"id": "C02", "title": "Interval policies neither over- nor under-thin", "statement": "EveryNSeconds and EveryNSteps(exact_interval=False) always keep the first checkpoint; any two consecutively kept checkpoints are at least the interval apart; every dropped checkpoint is less than the interval after the last kept checkpoint before it.", "quantifier": "every interval and every checkpoint sequence (any length, any steps/times)", "why_tests_cant": "Greedy thinning depends on the whole history; tests sample a few spacing patterns.", "anchors": ["checkpoint/orbax/checkpoint/_src/checkpoint_managers/preservation_policy.py::EveryNSeconds", "checkpoint/orbax/checkpoint/_src/checkpoint_managers/preservation_policy.py::EveryNSteps"]}
{"id": "C03", "title": "EveryNSteps keeps exactly the multiples and max_to_keep bounds them", "statement": "With exact_interval, the kept checkpoints are exactly those whose step is a multiple of interval_steps, restricted to the newest max_to_keep of them; never more than max_to_keep are kept; interval 0 is rejected.", "quantifier": "every interval, every max_to_keep, every checkpoint list", "why_tests_cant": "The bound must hold for every count, including the boundary max_to_keep=0 which slicing with a negated count treats specially.", "anchors": ["checkpoint/orbax/checkpoint/_src/checkpoint_managers/preservation_policy.py::EveryNSteps"]}
{"id": "C04", "title": "EveryNStepsClosest keeps the closest checkpoint of every grid target", "statement": "The last checkpoint is kept; for every grid multiple that some checkpoint rounds to, a checkpoint of minimal distance (the latest on ties) is kept; nothing else is kept; with max_to_keep only the newest max_to_keep of those remain.", "quantifier": "every interval, max_to_keep and checkpoint list", "why_tests_cant": "Grouping plus tie-breaking over arbitrary irregular steps cannot be enumerated.", "anchors": ["checkpoint/orbax/checkpoint/_src/checkpoint_managers/preservation_policy.py::EveryNStepsClosest"]}
{"id": "C05", "title": "BestN keeps the n best", "statement": "Among checkpoints with metrics exactly min(n,count) are kept and no dropped one is strictly better than a kept one (ties resolved in favour of the newer one when not reversed); checkpoints without metrics are kept iff keep_checkpoints_without_metrics.", "quantifier": "every metric assignment, order direction, n and flag", "why_tests_cant": "Correctness of a stable sort plus slice over every metric pattern, with ties and missing metrics.", "anchors": ["checkpoint/orbax/checkpoint/_src/checkpoint_managers/preservation_policy.py::BestN"]}
{"id": "C06", "title": "AnyPreservationPolicy is a union", "statement": "A checkpoint is kept by AnyPreservationPolicy iff at least one child policy keeps it; adding a child policy never causes a checkpoint to be dropped.", "quantifier": "every list of child decisions and every checkpoint list", "why_tests_cant": "Quantifies over arbitrary combinations of child policies.", "anchors": ["checkpoint/orbax/checkpoint/_src/checkpoint_managers/preservation_policy.py::AnyPreservationPolicy"]}
{"id": "C07", "title": "LatestDuration keeps the recent checkpoints", "statement": "With times in non-decreasing order, a checkpoint is kept iff its age is at most the duration.", "quantifier": "every clock value, duration and checkpoint list", "why_tests_cant": "Clock-dependent; tests pin the clock to a few values.", "anchors": ["checkpoint/orbax/checkpoint/_src/checkpoint_managers/preservation_policy.py::LatestDuration"]}
{"id": "C08", "title": "Save decision policies", "statement": "FixedInterval saves iff the step is a multiple; SpecificSteps iff listed; InitialSave iff there is no previous checkpoint; Preemption iff signalled; AnySavePolicy iff some child; ContinuousCheckpointing never saves while a save is in progress and keeps consecutive saves at least minimum_interval apart over any history, and saves whenever idle and due.", "quantifier": "every step, context, previous-checkpoint list and save history", "why_tests_cant": "Spacing is a property of the whole save history, not of one call.", "anchors": ["checkpoint/orbax/checkpoint/_src/checkpoint_managers/save_decision_policy.py::FixedIntervalPolicy", "checkpoint/orbax/checkpoint/_src/checkpoint_managers/save_decision_policy.py::ContinuousCheckpointingPolicy", "checkpoint/orbax/checkpoint/_src/checkpoint_managers/save_decision_policy.py::AnySavePolicy"]}
{"id": "C09", "title": "Unforced saves never go back in time", "statement": "In any history of CheckpointManager.save/delete/reload calls without force, a save at a step <= latest_step() is refused with no change on disk, every accepted save makes latest_step() that step, and all_steps() is strictly increasing, so latest_step() is its maximum.", "quantifier": "every sequence of manager calls, any preservation policy, any save policy", "why_tests_cant": "History property over unbounded sequences of operations.", "anchors": ["checkpoint/orbax/checkpoint/checkpoint_manager.py::CheckpointManager.should_save", "checkpoint/orbax/checkpoint/checkpoint_manager.py::CheckpointManager.save", "checkpoint/orbax/checkpoint/checkpoint_manager.py::CheckpointManager.latest_step"]}
{"id": "C10", "title": "Manager view equals storage", "statement": "After every completed synchronous operation of a manager that is the only writer, all_steps() lists exactly the steps committed on disk; reload() re-establishes this from any state.", "quantifier": "every history of save/delete/reload with successful storage operations", "why_tests_cant": "The cache is updated incrementally in several places; agreement must hold after every history.", "anchors": ["checkpoint/orbax/checkpoint/checkpoint_manager.py::CheckpointManager.save", "checkpoint/orbax/checkpoint/checkpoint_manager.py::CheckpointManager.delete", "checkpoint/orbax/checkpoint/checkpoint_manager.py::CheckpointManager.reload", "checkpoint/orbax/checkpoint/checkpoint_manager.py::CheckpointManager._load_checkpoint_infos"]}
{"id": "C11", "title": "Retention: only unpreserved steps are ever deleted, and all of them are", "statement": "Each accepted save removes from disk exactly the steps the preservation policy rejects (evaluated on the list including the new step) and no other; in particular with max_to_keep=n>=1 and no other criteria at most n steps are on disk and the newest is among them.", "quantifier": "every history and every policy function", "why_tests_cant": "The number of checkpoints and deletions over time is unbounded.", "anchors": ["checkpoint/orbax/checkpoint/checkpoint_manager.py::CheckpointManager._get_old_steps_to_remove", "checkpoint/orbax/checkpoint/checkpoint_manager.py::CheckpointManager.save", "checkpoint/orbax/checkpoint/checkpoint_manager.py::_get_default_preservation_policy"]}
{"id": "C12", "title": "Failed asynchronous save never loses committed data", "statement": "If finalization of an asynchronous save fails, every step that was committed before is still on disk, and the failed step does not appear among the committed steps.", "quantifier": "every history, every failing save position", "why_tests_cant": "Failure may strike any save in any history.", "anchors": ["checkpoint/orbax/checkpoint/checkpoint_manager.py::CheckpointManager._finalize", "checkpoint/orbax/checkpoint/checkpoint_manager.py::_FinalizeThread"]}
{"id": "C13", "title": "A background save failure is reported, exactly once per waiting thread", "statement": "When a background finalize fails, each thread that next waits on the manager observes the exception, and a later wait by the same thread without new failures returns normally.", "quantifier": "every interleaving of waits by any set of threads", "why_tests_cant": "Interleavings of waiters cannot be enumerated by tests.", "anchors": ["checkpoint/orbax/checkpoint/checkpoint_manager.py::_FinalizeThread.join", "checkpoint/orbax/checkpoint/checkpoint_manager.py::CheckpointManager.wait_until_finished"]}
{"id": "C14", "title": "best_step returns a metric-optimal step", "statement": "best_step() is None iff no checkpoint carries metrics, otherwise it is a step whose metric is optimal (latest among the optimal in the mode order) among checkpoints with metrics.", "quantifier": "every metric assignment", "why_tests_cant": "Ranking over arbitrary metric values and missing metrics.", "anchors": ["checkpoint/orbax/checkpoint/checkpoint_manager.py::CheckpointManager.best_step", "checkpoint/orbax/checkpoint/checkpoint_manager.py::CheckpointManager._sort_checkpoints_by_metrics"]}
{"id": "C15", "title": "A read-only manager never writes", "statement": "A manager created with read_only=True never changes storage through save() or delete().", "quantifier": "every history of calls including force=True", "why_tests_cant": "History property.", "anchors": ["checkpoint/orbax/checkpoint/checkpoint_manager.py::CheckpointManager.should_save", "checkpoint/orbax/checkpoint/checkpoint_manager.py::CheckpointManager.save", "checkpoint/orbax/checkpoint/checkpoint_manager.py::CheckpointManager.delete"]}
{"id": "C16", "title": "Step names round-trip and are canonical", "statement": "For a standard name format with any prefix and zero-padding width, parsing the built name of a step gives that step back; a name is recognised iff it is the built name of some step; distinct steps have distinct names.", "quantifier": "every step number, prefix and fixed width", "why_tests_cant": "Infinitely many step numbers, widths and strings.", "anchors": ["checkpoint/orbax/checkpoint/_src/path/step.py::_StandardNameFormat.build_name", "checkpoint/orbax/checkpoint/_src/path/step.py::_StandardNameFormat._build_metadata"]}
{"id": "C17", "title": "Step discovery finds exactly the committed steps", "statement": "find_all lists exactly the steps whose canonical directory exists and is finalized, and a temporary directory is never reported as a checkpoint.", "quantifier": "every directory listing", "why_tests_cant": "Any set of stray names may be present in the directory.", "anchors": ["checkpoint/orbax/checkpoint/_src/path/step.py::_StandardNameFormat.find_all", "checkpoint/orbax/checkpoint/_src/path/step.py::checkpoint_steps", "checkpoint/orbax/checkpoint/_src/path/temporary_paths.py::is_path_finalized"]}
{"id": "C18", "title": "Atomic-rename saves are all-or-nothing under crashes", "statement": "If a process crashes at any point while saving a step with the atomic-rename protocol, afterwards either the step is not visible as a checkpoint, or it is visible with the complete contents; previously committed steps are untouched.", "quantifier": "every crash point, every list of files written, every prior directory state", "why_tests_cant": "Tests can only kill at a few chosen points.", "anchors": ["checkpoint/orbax/checkpoint/_src/path/atomicity.py::AtomicRenameTemporaryPath", "checkpoint/orbax/checkpoint/_src/path/temporary_paths.py::is_path_temporary"]}
{"id": "C19", "title": "Commit-file saves are all-or-nothing under crashes", "statement": "Same for the commit-file protocol: a directory is treated as finalized only if the commit file exists, which is written last.", "quantifier": "every crash point, every list of files written", "why_tests_cant": "Tests can only kill at a few chosen points.", "anchors": ["checkpoint/orbax/checkpoint/_src/path/atomicity.py::CommitFileTemporaryPath", "checkpoint/orbax/checkpoint/_src/path/temporary_paths.py::is_path_finalized"]}
{"id": "C20", "title": "Overwriting with force keeps some complete version", "statement": "Saving with force=True over an existing checkpoint: at every crash point, either the old or the new complete version is visible.", "quantifier": "every crash point", "why_tests_cant": "Crash point quantifier.", "anchors": ["checkpoint/orbax/checkpoint/_src/checkpointers/checkpointer.py::Checkpointer.save"]}
{"id": "C21", "title": "Temporary clean-up never removes a committed checkpoint and removes every leftover", "statement": "cleanup_temporary_paths deletes every unfinished save directory and deletes nothing that is finalized or that is not a checkpoint.", "quantifier": "every directory listing", "why_tests_cant": "Arbitrary directory contents.", "anchors": ["checkpoint/orbax/checkpoint/_src/path/temporary_paths.py::cleanup_temporary_paths", "checkpoint/orbax/checkpoint/_src/path/temporary_paths.py::all_temporary_paths"]}
{"id": "C22", "title": "Crash recovery returns the last committed step", "statement": "After any sequence of saves each of which may crash at an arbitrary point, restart (clean-up then discovery) yields exactly the steps whose save completed, each with the contents of its completed save.", "quantifier": "every sequence of saves and crash points", "why_tests_cant": "Unbounded sequence of crashes.", "anchors": ["checkpoint/orbax/checkpoint/_src/path/atomicity.py::AtomicRenameTemporaryPath", "checkpoint/orbax/checkpoint/_src/path/temporary_paths.py::cleanup_temporary_paths", "checkpoint/orbax/checkpoint/_src/path/step.py::checkpoint_steps"]}
{"id": "C23", "title": "Background deleter performs every request in order before close returns", "statement": "With the threaded deleter every delete(step) issued before close() is executed, in issue order, by the time close() returns, provided deletions do not raise.", "quantifier": "every sequence of requests and every interleaving with the worker thread", "why_tests_cant": "Thread interleavings.", "anchors": ["checkpoint/orbax/checkpoint/_src/path/deleter.py::ThreadedCheckpointDeleter"]}
{"id": "C24", "title": "delete(step) removes that step and only that step", "statement": "Standard deleter: afterwards no committed directory for the step remains under the checkpoint root (it is removed or renamed away), all other steps are untouched.", "quantifier": "every directory state, every deleter configuration", "why_tests_cant": "Arbitrary directory contents and options.", "anchors": ["checkpoint/orbax/checkpoint/_src/path/deleter.py::StandardCheckpointDeleter.delete", "checkpoint/orbax/checkpoint/_src/path/step.py::find_step_path"]}
{"id": "C25", "title": "Async saves are serialized and errors are not lost", "statement": "At most one background commit runs at any time; wait_until_finished returning normally (with no cancellation) implies the previous save was committed; otherwise its exception is raised exactly once.", "quantifier": "every history of save/wait/check_for_errors/cancel and background completions", "why_tests_cant": "Interleavings of caller and background thread.", "anchors": ["checkpoint/orbax/checkpoint/_src/checkpointers/async_checkpointer.py::_AsyncManager", "checkpoint/orbax/checkpoint/_src/checkpointers/async_checkpointer.py::AsyncCheckpointer.save"]}
{"id": "C26", "title": "Commit happens only after every write finished", "statement": "The checkpoint is finalized (made visible) only after all commit futures of the save completed successfully; if any of them fails the checkpoint is never made visible.", "quantifier": "every list of commit futures and outcomes", "why_tests_cant": "Any number of futures, any failing subset.", "anchors": ["checkpoint/orbax/checkpoint/_src/checkpointers/async_checkpointer.py::_background_wait_for_commit_futures"]}
{"id": "C27", "title": "Signal contract: a dependent write starts only after its prerequisites were signalled", "statement": "A future that awaits contracted signals runs its body only after every awaited signal was set; it sets its own completion signals only after its body succeeded.", "quantifier": "every interleaving of signal producers and consumers", "why_tests_cant": "Thread interleavings.", "anchors": ["checkpoint/orbax/checkpoint/_src/futures/future.py::_SignalingThread", "checkpoint/orbax/checkpoint/_src/futures/future.py::AwaitableSignalsContract"]}
{"id": "C28", "title": "ChainedFuture respects its timeout budget", "statement": "ChainedFuture.result(timeout) waits on each future with the remaining time, succeeds iff all succeed in time, calls the completion callback exactly once and only after all succeeded.", "quantifier": "every list of futures and durations", "why_tests_cant": "Unbounded list, arbitrary timings.", "anchors": ["checkpoint/orbax/checkpoint/_src/futures/future.py::ChainedFuture", "checkpoint/orbax/checkpoint/_src/futures/future.py::get_remaining_time"]}
{"id": "C29", "title": "Key-value signalling client behaves like a write-once map with blocking reads", "statement": "blocking get returns the value set for that key iff it is set before the deadline; delete removes a key and everything below it; other keys are unaffected.", "quantifier": "every history of operations", "why_tests_cant": "Operation histories.", "anchors": ["checkpoint/orbax/checkpoint/_src/futures/signaling_client.py::ThreadSafeKeyValueSignalingClient"]}
{"id": "C30", "title": "Byte limiter never exceeds its budget", "statement": "With LimitInFlightBytes(max), at any time the sum of outstanding reservations is below max; release restores the budget exactly; any request smaller than the limit can eventually be granted once others release.", "quantifier": "every history of wait/release by any number of tasks", "why_tests_cant": "Concurrent task interleavings.", "anchors": ["checkpoint/orbax/checkpoint/_src/serialization/limits.py::LimitInFlightBytes", "checkpoint/orbax/checkpoint/_src/serialization/limits.py::reserved_bytes"]}
{"id": "C31", "title": "Memory-budgeted batches partition the arrays and respect the budget", "statement": "The batches yielded by next_memory_budgeted_batch concatenate to the input order, none is empty, and per batch every worker holds at most the budget unless the batch is a single array.", "quantifier": "every list of arrays, any per-worker sizes, any budget", "why_tests_cant": "Unbounded inputs.", "anchors": ["checkpoint/orbax/checkpoint/_src/serialization/worker_memory_utils.py::next_memory_budgeted_batch"]}
{"id": "C32", "title": "Memory regulator output stays within bounds", "statement": "Every limit returned by the memory regulator lies within [min,max]; while a surge is reported the limit never increases the non-surge target; when usage exceeds total memory the limit does not increase.", "quantifier": "every sequence of measurements and gains", "why_tests_cant": "Feedback history is unbounded.", "anchors": ["checkpoint/orbax/checkpoint/_src/serialization/memory_regulator.py::MemoryRegulator.get_next_memory_limit"]}
{"id": "C33", "title": "Chosen chunk shape is legal", "statement": "choose_chunk_shape terminates and returns a shape of the same rank whose every dimension divides the write shape, with at most the target bytes (or the smallest possible element) and requested shard axes honoured.", "quantifier": "every global/write shape, itemsize, target byte size and shard axes", "why_tests_cant": "Unbounded integer inputs; termination.", "anchors": ["checkpoint/orbax/checkpoint/_src/arrays/subchunking.py::choose_chunk_shape", "checkpoint/orbax/checkpoint/_src/arrays/subchunking.py::_find_divisors"]}
{"id": "C34", "title": "Chunking a fragment is an exact partition", "statement": "chunk_fragment returns pieces of the target shape such that every element of the fragment belongs to exactly one piece, and no piece extends outside.", "quantifier": "every fragment, rank and dividing target shape", "why_tests_cant": "Unbounded rank and sizes.", "anchors": ["checkpoint/orbax/checkpoint/_src/arrays/subchunking.py::chunk_fragment"]}
{"id": "C35", "title": "Assembling fragments yields the array", "statement": "If fragments are consistent pieces of an array and cover it, converting Fragments to an array gives the array at every index; incomplete coverage is rejected.", "quantifier": "every shape, fragment set and array contents", "why_tests_cant": "Unbounded shapes and overlaps.", "anchors": ["checkpoint/orbax/checkpoint/_src/arrays/fragments.py::_GenericFragments.__array__", "checkpoint/orbax/checkpoint/_src/arrays/fragments.py::_is_full"]}
{"id": "C36", "title": "Slicing commutes with assembling", "statement": "Slicing Fragments by an index and assembling equals slicing the assembled array; intersect and offset_by agree with set intersection and translation.", "quantifier": "every fragment and index", "why_tests_cant": "Unbounded shapes.", "anchors": ["checkpoint/orbax/checkpoint/_src/arrays/fragments.py::_GenericFragment.intersect", "checkpoint/orbax/checkpoint/_src/arrays/fragments.py::_GenericFragment.slice", "checkpoint/orbax/checkpoint/_src/arrays/fragments.py::_GenericFragments.slice"]}
{"id": "C37", "title": "Replica-parallel slices cover each shard exactly once", "statement": "Over all replicas, the slices written by replica-parallel saving partition each shard: every element is written by exactly one replica; with a single writing replica each shard is written once.", "quantifier": "every shard shape and replica count", "why_tests_cant": "Unbounded shapes and replica counts.", "anchors": ["checkpoint/orbax/checkpoint/_src/serialization/replica_slices.py::calculate_replica_parallel_axis_and_local_shape", "checkpoint/orbax/checkpoint/_src/serialization/replica_slices.py::get_replica_slices"]}
{"id": "C38", "title": "Maximal sharding is valid", "statement": "The constructed maximal sharding uses every device exactly once (mesh sizes multiply to the device count) and every partitioned dimension is divisible by its mesh axis.", "quantifier": "every shape and device count", "why_tests_cant": "Number-theoretic over all integers.", "anchors": ["checkpoint/orbax/checkpoint/_src/arrays/sharding.py::_construct_maximal_sharding"]}
{"id": "C39", "title": "Index normalisation preserves meaning", "statement": "resolve_slice(xs, shape) selects the same elements as xs for every element of the documented index type; dissolve/resolve and hashable conversions are mutually inverse; slice_shape equals the number of selected elements.", "quantifier": "every index and shape", "why_tests_cant": "All integers for start, stop and step.", "anchors": ["checkpoint/orbax/checkpoint/_src/arrays/numpy_utils.py::resolve_slice", "checkpoint/orbax/checkpoint/_src/arrays/numpy_utils.py::dissolve_slice", "checkpoint/orbax/checkpoint/_src/arrays/numpy_utils.py::slice_shape", "checkpoint/orbax/checkpoint/_src/arrays/numpy_utils.py::to_hashable_index"]}
{"id": "C40", "title": "Flat dictionary round trip", "statement": "from_flat_dict(to_flat_dict(tree)) equals the tree for nested dictionaries, keys of to_flat_dict are exactly the leaf paths.", "quantifier": "every nested dict tree", "why_tests_cant": "Unbounded depth and breadth.", "anchors": ["checkpoint/orbax/checkpoint/_src/tree/utils.py::to_flat_dict", "checkpoint/orbax/checkpoint/_src/tree/utils.py::from_flat_dict"]}
{"id": "C41", "title": "Tree serialization round trip", "statement": "deserialize_tree(serialize_tree(tree), target=tree) equals the tree, and serialize_tree keeps the leaf at every key path.", "quantifier": "every tree of nested dict/list/tuple", "why_tests_cant": "Unbounded trees.", "anchors": ["checkpoint/orbax/checkpoint/_src/tree/utils.py::serialize_tree", "checkpoint/orbax/checkpoint/_src/tree/utils.py::deserialize_tree", "checkpoint/orbax/checkpoint/_src/tree/utils.py::from_flattened_with_keypath"]}
{"id": "C42", "title": "Parameter names identify leaves", "statement": "Two different leaves of a saved tree never get the same parameter name (and hence storage location), provided sibling keys differ as strings and no key contains a dot; keys that contain dots can collide.", "quantifier": "every pair of key paths of a tree", "why_tests_cant": "All strings as keys, including separators.", "anchors": ["checkpoint/orbax/checkpoint/_src/tree/utils.py::param_name_from_keypath"]}
{"id": "C43", "title": "tree_difference is sound and complete", "statement": "tree_difference(a,b) is None iff the two trees have the same structure; a reported difference points at a path where they differ.", "quantifier": "every pair of trees", "why_tests_cant": "Unbounded pairs of trees.", "anchors": ["checkpoint/orbax/checkpoint/_src/tree/structure_utils.py::tree_difference"]}
{"id": "C44", "title": "tree_trim keeps exactly the template", "statement": "tree_trim(template, tree) has the structure of the template, and every leaf of the result is the leaf of the tree at the same path; extra entries are dropped, missing ones are reported in strict mode.", "quantifier": "every template and tree", "why_tests_cant": "Unbounded trees.", "anchors": ["checkpoint/orbax/checkpoint/_src/tree/structure_utils.py::tree_trim"]}
{"id": "C45", "title": "merge_trees: later trees win, nothing is lost", "statement": "The merged tree contains the leaf of the last tree defining (non-None) that path for every path of any input, and nothing else.", "quantifier": "every list of compatible trees", "why_tests_cant": "Unbounded trees and number of inputs.", "anchors": ["checkpoint/orbax/checkpoint/_src/tree/structure_utils.py::merge_trees"]}
{"id": "C46", "title": "PartsOf behaves like a partial map over the template leaves", "statement": "overlay, intersect, subtraction, select, partition and full_structure satisfy partial-map laws: lookups in the result are those of the abstract partial map; full_structure succeeds iff no leaf is missing.", "quantifier": "every template and pair of parts", "why_tests_cant": "Algebraic laws over all trees.", "anchors": ["checkpoint/orbax/checkpoint/_src/tree/parts_of.py::PartsOf.overlay", "checkpoint/orbax/checkpoint/_src/tree/parts_of.py::PartsOf.intersect", "checkpoint/orbax/checkpoint/_src/tree/parts_of.py::PartsOf.full_structure", "checkpoint/orbax/checkpoint/_src/tree/parts_of.py::partition"]}
{"id": "C47", "title": "apply_transformations produces exactly the keys of the new tree", "statement": "Every key of the new structure gets exactly one value: from the last matching transform, else carried over or from the fallback according to default_to_original; missing originals are reported.", "quantifier": "every pair of trees and transformation set", "why_tests_cant": "Unbounded trees and rule sets.", "anchors": ["checkpoint/orbax/checkpoint/transform_utils.py::apply_transformations"]}
{"id": "C48", "title": "checkpoints_iterator yields strictly increasing steps", "statement": "The sequence of steps yielded by checkpoints_iterator is strictly increasing, each was the newest checkpoint present when observed, and a final checkpoint that stays present is eventually yielded.", "quantifier": "every evolution of the directory over time", "why_tests_cant": "Environment schedules are unbounded.", "anchors": ["checkpoint/orbax/checkpoint/checkpoint_utils.py::checkpoints_iterator", "checkpoint/orbax/checkpoint/checkpoint_utils.py::_wait_for_new_checkpoint"]}
{"id": "C49", "title": "Metadata updates are applied in order", "statement": "After wait_until_finished on the non-blocking metadata store, the file content is that of applying the submitted writes/updates in submission order; an update changes only the keys given.", "quantifier": "every sequence of writes and updates and every interleaving with the worker thread", "why_tests_cant": "Histories and interleavings.", "anchors": ["checkpoint/orbax/checkpoint/_src/metadata/checkpoint.py::_NonBlockingMetadataStore", "checkpoint/orbax/checkpoint/_src/metadata/checkpoint.py::_MetadataStoreImpl.update"]}
{"id": "C50", "title": "Step metadata is forward compatible and round-trips", "statement": "deserialize(serialize(m)) equals m (restricted to serializable fields), and unknown keys written by a newer version are preserved under custom metadata instead of failing.", "quantifier": "every metadata value and every set of unknown keys", "why_tests_cant": "Arbitrary field sets.", "anchors": ["checkpoint/orbax/checkpoint/_src/metadata/step_metadata_serialization.py::deserialize", "checkpoint/orbax/checkpoint/_src/metadata/metadata_serialization_utils.py::process_unknown_key"]}
{"id": "C51", "title": "Tree metadata JSON round trip", "statement": "InternalTreeMetadata.from_json(to_json(m)) has the same entries; as_nested_tree rebuilds the serialized tree it was built from.", "quantifier": "every tree", "why_tests_cant": "Unbounded trees and key types.", "anchors": ["checkpoint/orbax/checkpoint/_src/metadata/tree.py::InternalTreeMetadata.to_json", "checkpoint/orbax/checkpoint/_src/metadata/tree.py::InternalTreeMetadata.from_json", "checkpoint/orbax/checkpoint/_src/metadata/tree.py::InternalTreeMetadata.as_nested_tree"]}
{"id": "C52", "title": "Tree metadata merge is a keyed union", "statement": "merge of several metadata objects contains each key once with the value of the last one (overwrite) or fails on duplicates (no overwrite).", "quantifier": "every list of metadata objects", "why_tests_cant": "Unbounded inputs.", "anchors": ["checkpoint/orbax/checkpoint/_src/metadata/tree.py::InternalTreeMetadata.merge"]}
{"id": "C53", "title": "Rich-type tree metadata round trip", "statement": "Reading the JSON of a value-metadata tree built from dicts, lists, tuples and named tuples gives the same tree, for all string keys, including keys that coincide with the format\u2019s own markers.", "quantifier": "every tree", "why_tests_cant": "All strings as keys and unbounded depth.", "anchors": ["checkpoint/orbax/checkpoint/_src/metadata/tree_rich_types.py::value_metadata_tree_to_json_str", "checkpoint/orbax/checkpoint/_src/metadata/tree_rich_types.py::value_metadata_tree_from_json_str"]}
{"id": "C54", "title": "Sharding metadata round trip", "statement": "from_serialized_string(to_serialized_string(s)) equals s for every sharding metadata.", "quantifier": "every mesh shape, axis names, partition spec and device mesh", "why_tests_cant": "Unbounded nested specs.", "anchors": ["checkpoint/orbax/checkpoint/_src/metadata/sharding.py::NamedShardingMetadata", "checkpoint/orbax/checkpoint/_src/metadata/sharding.py::from_serialized_string"]}
{"id": "C55", "title": "Type handler registry lookups", "statement": "After a successful registration of a handler for a type, looking up that type gives that handler, and lookups for types not matching the new registration are unchanged.", "quantifier": "every registration history and subclass relation", "why_tests_cant": "Histories and arbitrary type predicates.", "anchors": ["checkpoint/orbax/checkpoint/_src/serialization/type_handler_registry.py::_TypeHandlerRegistryImpl"]}
{"id": "C56", "title": "Composite handler dispatch is stable and finalization is complete", "statement": "Once an item was saved or restored with some args type, later calls for that item and args type use the same handler; finalize finalizes every saved item exactly once, with the handler that saved it.", "quantifier": "every history of registrations, saves and restores", "why_tests_cant": "Registration histories.", "anchors": ["checkpoint/orbax/checkpoint/_src/handlers/composite_checkpoint_handler.py::CompositeCheckpointHandler._get_or_set_handler", "checkpoint/orbax/checkpoint/_src/handlers/composite_checkpoint_handler.py::CompositeCheckpointHandler.finalize", "checkpoint/orbax/checkpoint/_src/handlers/handler_registration.py::DefaultCheckpointHandlerRegistry"]}
{"id": "C57", "title": "Tree-metadata objects can be unflattened repeatedly", "statement": "Flattening a TreeMetadata and unflattening it any number of times with the same structure yields the same metadata each time.", "quantifier": "every number of unflatten calls, every tree", "why_tests_cant": "Repeated-use property.", "anchors": ["checkpoint/orbax/checkpoint/_src/metadata/tree.py::_TreeMetadataImpl.tree_unflatten"]}
{"id": "C58", "title": "Merging and intersecting trees by path", "statement": "transform_utils.merge_trees gives, for every path of any input, the leaf of the last input that has the path, and nothing else; intersect_trees gives exactly the paths all inputs have, with the leaves of the last.", "quantifier": "every list of trees and every target", "why_tests_cant": "Unbounded trees and number of inputs.", "anchors": ["checkpoint/orbax/checkpoint/transform_utils.py::merge_trees", "checkpoint/orbax/checkpoint/transform_utils.py::intersect_trees"]}
{"id": "C59", "title": "A snapshot is a complete copy, and replacing its source keeps one version", "statement": "A checkpoint handed out by wait_for_new_checkpoint / checkpoints_iterator has a snapshot with exactly the files of the checkpoint at the time it was copied, it stays intact whatever happens to the checkpoint afterwards, releasing it removes it and nothing else, and replacing the source by a snapshot leaves, at every crash point, a complete version of the checkpoint under its name.", "quantifier": "for every checkpoint content, every crash point during the copy or the replacement, and every later retry", "why_tests_cant": "crash points between the individual copies and renames, and the state a retry finds, cannot be enumerated by tests", "anchors": ["checkpoint/orbax/checkpoint/_src/path/snapshot/snapshot.py: _DefaultSnapshot, _EmptySnapshot", "checkpoint/orbax/checkpoint/checkpoint_utils.py: _snapshot_checkpoint, _release_snapshot", "checkpoint/orbax/checkpoint/_src/path/utils.py: recursively_copy_files"]}
{"id": "C60", "title": "Per-process array metadata is accumulated and cross-checked", "statement": "The array metadata a process writes in several calls is read back as all of it, in order and unchanged; validation accepts exactly when every process has recorded the same arrays with the same write shape, chunk shape and random key implementation.", "quantifier": "for every number of processes, every sequence of writes and every metadata", "why_tests_cant": "ranges over all sequences of writes and all sets of processes", "anchors": ["checkpoint/orbax/checkpoint/_src/metadata/array_metadata_store.py: Serializer, Store.write, Store.read, Validator"]}
{"id": "C61", "title": "A finalized partial save is the union of its partial saves", "statement": "After any number of successful partial saves to a path, finalize publishes a checkpoint at the path holding exactly the union of the saved leaves, with their metadata; before that nothing exists at the path; a save that repeats or nests with an already saved leaf is refused; an interrupted partial save or finalize loses nothing that an earlier partial save has stored, and overlapping asynchronous partial saves are carried out one after the other.", "quantifier": "for every sequence of partial saves, every interleaving of two asynchronous ones, every crash point in a save or in finalize", "why_tests_cant": "ranges over all trees, histories, schedules and crash points", "anchors": ["checkpoint/orbax/checkpoint/experimental/v1/_src/partial/saving.py: save, save_async, finalize, _merge_all", "checkpoint/orbax/checkpoint/_src/handlers/base_pytree_checkpoint_handler.py: _get_partial_save_additions", "checkpoint/orbax/checkpoint/_src/path/snapshot/snapshot.py: _EmptySnapshot"]}
{"id": "C62", "title": "A reserved path has one owner", "statement": "At most one asset that is neither deleted nor incomplete exists for a path in the tiering service. Reserve of a path that has such an asset creates nothing and returns that asset; otherwise it creates exactly one asset and one tier path; what a client got stays reserved for it through every history in which nobody deletes it.", "quantifier": "for every history of concurrent client calls, worker steps and clock readings", "why_tests_cant": "interleavings of client calls, worker steps and lease expiries are unbounded", "anchors": ["checkpoint/orbax/checkpoint/experimental/tiering_service/server.py: Reserve", "checkpoint/orbax/checkpoint/experimental/tiering_service/assets.py: create_or_fetch_asset", "checkpoint/orbax/checkpoint/experimental/tiering_service/db_schema.py: Asset"]}
{"id": "C63", "title": "Jobs are owned by one worker at a time and end once", "statement": "In the tiering service a job row is never lost or altered in what it asks for; a completed or failed job never changes again; while a worker's lease on a job is valid no other worker is given the job, and a worker that lost its job changes nothing by reporting on it; a claim returns only a waiting job of the asked-for backend, and returns one whenever one is eligible.", "quantifier": "for every history of claims, heartbeats, completions, failures and clock readings of any number of workers", "why_tests_cant": "claims race with lease expiry and stale reports in unboundedly many interleavings", "anchors": ["checkpoint/orbax/checkpoint/experimental/tiering_service/db_lib.py: acquire_next_job", "checkpoint/orbax/checkpoint/experimental/tiering_service/job_worker.py: _poll_single_job, _update_job_status_after_poll, _complete_job, _fail_job, _extend_lease"]}
{"id": "C64", "title": "Copy capacity is respected", "statement": "At no time do more copy jobs run on a backend than its configured maximum, and no two jobs of one asset run at the same time.", "quantifier": "for every history of claims and clock readings", "why_tests_cant": "depends on the interleaving of concurrent claims and expiries", "anchors": ["checkpoint/orbax/checkpoint/experimental/tiering_service/db_lib.py: acquire_next_job"]}
{"id": "C65", "title": "A stored asset is readable", "statement": "A tier path is READY exactly when it has a ready time; it becomes READY only by the finalization of its asset or by a completed copy onto it, and stays READY until its asset is deleted or the copy onto it fails; a STORED asset has a READY tier path until it is deleted; a copy has a READY source; every tier path has at most one copy job.", "quantifier": "for every history of the tiering service", "why_tests_cant": "ranges over all interleavings of finalize, copy, delete and worker failures", "anchors": ["checkpoint/orbax/checkpoint/experimental/tiering_service/assets.py: finalize_asset", "checkpoint/orbax/checkpoint/experimental/tiering_service/job_worker.py: _complete_job, _fail_job, _process_copy_job, _find_source_tier_path"]}
{"id": "C66", "title": "Deletion of an asset is exclusive, complete and final", "statement": "Delete is accepted exactly for an existing asset that is not deleted and has no deletion pending, and queues one job; while it is pending no prefetch or keep-alive of the asset is admitted; when its owner reports that the data has been removed the asset and all its tier paths are DELETED; a deleted asset stays deleted, a deletion that failed can be repeated.", "quantifier": "for every history of client calls, worker steps, lease expiries and failures", "why_tests_cant": "ranges over all interleavings of deletion with finalize, copies, stale workers and failures", "anchors": ["checkpoint/orbax/checkpoint/experimental/tiering_service/assets.py: queue_delete_asset_job, begin_delete_asset, complete_delete_asset, is_delete_pending", "checkpoint/orbax/checkpoint/experimental/tiering_service/server.py: Delete, Prefetch, PrefetchKeepAlive", "checkpoint/orbax/checkpoint/experimental/tiering_service/job_worker.py: _execute_delete_job"]}
{"id": "C67", "title": "Prefetch gives one live copy per backend and keeps the promised lease", "statement": "An asset has at most one pending, running or ready tier path on a backend; Prefetch returns it if there is one and otherwise creates one tier path with one copy job; keep-alives never shorten a lease or change a state, and the lease they promise is kept.", "quantifier": "for every reachable state, asset, backend and time", "why_tests_cant": "ranges over all reachable states and interleavings of concurrent prefetches", "anchors": ["checkpoint/orbax/checkpoint/experimental/tiering_service/server.py: Prefetch, PrefetchKeepAlive", "checkpoint/orbax/checkpoint/experimental/tiering_service/assets.py: create_prefetch_job, prefetch_keep_alive", "checkpoint/orbax/checkpoint/experimental/tiering_service/db_schema.py: TierPath"]}
{"id": "C68", "title": "Clients and copies are sent to the nearest backend, and each tier path has its own storage", "statement": "In the tiering service a client is given the first backend in its zone, else the first one serving its region, and is refused only if there is none; a copy goes to a backend in the source's zone or region, and one is found whenever one exists. Tier paths with different identifiers have different storage paths below their backend's prefix; deleting one removes exactly the objects at or below it, and nothing of another tier path.", "quantifier": "for every list of backends, client location, reserved path, identifiers, listing order, page size and batch outcome", "why_tests_cant": "the set of configurations, paths and bucket contents is unbounded", "anchors": ["checkpoint/orbax/checkpoint/experimental/tiering_service/storage_backend.py: locate_closest_backend, get_storage_path", "checkpoint/orbax/checkpoint/experimental/tiering_service/assets.py: find_matching_backend", "checkpoint/orbax/checkpoint/experimental/tiering_service/gcp_storage_client.py: delete_path"]}
{"id": "C69", "title": "A server runs only on a backend table that agrees with its configuration", "statement": "Initializing an empty table makes exactly the rows of the configuration and initializing it again changes nothing; the check at start-up accepts exactly the tables that agree with the configuration entry by entry.", "quantifier": "for every configuration and every content of the backend table", "why_tests_cant": "the set of configurations and tables is unbounded", "anchors": ["checkpoint/orbax/checkpoint/experimental/tiering_service/db_lib.py: async_initialize_db, async_verify_db"]}
{"id": "C70", "title": "The tiering client manages one asset at a time and keeps it alive", "statement": "A client refuses to reserve or prefetch while it manages an asset; it keeps alive exactly the asset it manages; prefetch returns the path it asked for; after finalize or release no keep-alive runs and a new operation is accepted.", "quantifier": "for every interleaving of client calls, server answers and keep-alive answers", "why_tests_cant": "calls, RPC answers and background keep-alives interleave in unboundedly many ways", "anchors": ["checkpoint/orbax/checkpoint/experimental/tiering_service/client.py: TieringClient"]}
{"id": "C71", "title": "A shard fetched from a peer is the peer's shard", "statement": "A message sent between hosts is received as it was sent however the network splits it, and a truncated one is never taken for a message. A download that reports success wrote exactly the peer's file; a path named by a peer never leads outside the served directory; a fetch that succeeds leaves exactly the peer's files of the step in the restore directory, never another process's shard.", "quantifier": "for every message, split into pieces, break of a connection, relative path, set of files and order of the downloads", "why_tests_cant": "the network may split or cut the byte stream anywhere; contents and paths are unbounded", "anchors": ["checkpoint/orbax/checkpoint/experimental/emergency/p2p/protocol.py: TCPMessage, TCPClient.download", "checkpoint/orbax/checkpoint/experimental/emergency/p2p/service.py: _safe_path_join, handle_get_manifest, fetch_shard_from_peer"]}
{"id": "C72", "title": "A process is directed to a peer that holds its data", "statement": "The latest complete step is the greatest step of which every process of the mesh finds a source among the hosts; the source of a process is a host that announced the step and holds the data of the same positions of the array.", "quantifier": "for every mesh, set of hosts, stored steps and owners", "why_tests_cant": "meshes, hosts and their surviving steps are unbounded", "anchors": ["checkpoint/orbax/checkpoint/experimental/emergency/p2p/peer_selector.py: PeerSelector", "checkpoint/orbax/checkpoint/experimental/emergency/p2p/registry.py: PeerRegistry", "checkpoint/orbax/checkpoint/experimental/emergency/p2p/local.py: scan_stored_steps"]}
{"id": "C73", "title": "Multi-slice restore uses a step some slice has completely", "statement": "The emergency manager lists exactly the steps that some slice has completely in local storage or that are in persistent storage; restore(step) reads from a complete slice if there is one and otherwise from persistent storage; restore() takes the greatest step that can be restored.", "quantifier": "for every mesh, number of processes, local steps of every process and history of saves", "why_tests_cant": "the surviving local steps of every process after failures are arbitrary", "anchors": ["checkpoint/orbax/checkpoint/experimental/emergency/path.py: sync_global_data, _common_values_per_replica", "checkpoint/orbax/checkpoint/experimental/emergency/checkpoint_manager.py: all_steps, latest_step, save, restore"]}
{"id": "C74", "title": "After a restart every position is read by the hardware that wrote it", "statement": "The restore mesh places at every position the device of the host and slot that had the position before the restart, whatever ids the runtime has assigned; a slice that has a step completely reads all of its positions.", "quantifier": "for every number of hosts and devices and every renumbering at the restart", "why_tests_cant": "the renumberings of processes and devices are unbounded", "anchors": ["checkpoint/orbax/checkpoint/experimental/emergency/multihost.py: consistent_restore_mesh", "checkpoint/orbax/checkpoint/experimental/emergency/checkpoint_manager.py: _restore_from_local"]}
{"id": "C75", "title": "Broadcasting from one replica gives every replica the source's arrays", "statement": "Broadcasting a tree within a memory limit sends every leaf exactly once and in order, exceeds the limit only for a single leaf that is itself too large, and gives all replicas the values and types of the source.", "quantifier": "for every list of leaves, size, limit (also negative), number of replicas and contents of the other replicas", "why_tests_cant": "leaf sizes, limits and replica contents are unbounded", "anchors": ["checkpoint/orbax/checkpoint/_src/multihost/multislice.py: broadcast_one_replica_to_all"]}
{"id": "C76", "title": "Peer-to-peer restore gives every host its own shard of one step, or falls back together", "statement": "With the peer-to-peer manager, a host that restores from its disk or a peer gets the data of its own positions for the step asked for; with persistent storage all hosts agree on the source, and a step in persistent storage can always be restored; if every process finds a source and transfers succeed, restore succeeds on all hosts, again and again.", "quantifier": "for every mesh, content of the hosts' disks, failure of transfers and reads, and history of prefetches, saves, deletions and restores", "why_tests_cant": "failures, surviving disks and histories combine in unboundedly many ways", "anchors": ["checkpoint/orbax/checkpoint/experimental/emergency/p2p/checkpoint_manager.py: CheckpointManager.restore, _P2PSubsystem", "checkpoint/orbax/checkpoint/experimental/emergency/p2p/local.py: LocalCheckpointManager"]}
{"id": "C77", "title": "The byte runs of a shard are exactly its elements", "statement": "For every tensor shape, element size and shard (a box of indices), the byte ranges planned for the shard, concatenated in the order planned, are the shard's elements in row-major order: the element at every index of the box is found at the shard-relative row-major position, taken from the tensor's row-major position. The ranges are disjoint, in increasing order and inside the tensor; a box that only restricts the leading dimension is a single range.", "quantifier": "every rank, shape, item size, base offset and every valid box of indices, including empty boxes and scalars", "why_tests_cant": "tests use a few shapes and boxes; rank, extents and boxes are unbounded", "anchors": ["checkpoint/orbax/checkpoint/experimental/v1/_src/layout/safetensors_layout.py: index_domain_to_byte_runs"]}
{"id": "C78", "title": "Coalesced and chunked concurrent reads fill every buffer with the right bytes", "statement": "Whatever the over-read policy, coalescing gap, chunk size and completion order of the concurrent reads, and however the planned byte ranges overlap, every destination buffer ends up with exactly the bytes of its ranges, in order; so every shard's buffer holds the shard's elements. No byte of the file is read twice and no single read exceeds the chunk size.", "quantifier": "every list of shards and byte ranges inside the file, every policy, gap, positive chunk size and permutation of completions", "why_tests_cant": "the partition into blocks and chunks and the completion order have unboundedly many cases", "anchors": ["checkpoint/orbax/checkpoint/experimental/v1/_src/layout/safetensors_layout.py: _partition_runs, _plan_chunk_reads, _read_chunk, _read_file"]}
{"id": "C79", "title": "A safetensors checkpoint is read as its headers say, and a truncated file is refused", "statement": "A well-formed file is opened with the entries of its header; a tensor loaded in full has the bytes between its two offsets in the data section, and a shard has the tensor's elements with the shard's indices. A file cut anywhere before the end of its last tensor - in the length field, the header or the data - is refused. Across several files every tensor is found in its own file, and a name in two files is refused.", "quantifier": "every header, data section, list of tensors and shards, every truncation point, every list of files", "why_tests_cant": "truncation points, headers and data are unbounded", "anchors": ["checkpoint/orbax/checkpoint/experimental/v1/_src/layout/safetensors_layout.py: _read_header, _check_file_length, SafetensorsLayout._build_file_index, _plan_whole_tensor, _plan_sharded_tensor, SafetensorsLayout._load"]}
{"id": "C80", "title": "Coalescing bounds the bytes read and the number of requests", "statement": "With an over-read ratio of at least one, no coalesced read exceeds the ratio times the bytes needed from it, except by the gap floor once per joined run. The number of coalesced reads is at most the number of groups of runs further apart than the floor. With the automatic ratio, if there are at most 1024 such groups, at most 1024 reads are made, and nothing is read but the needed bytes and gaps below the floor.", "quantifier": "every list of byte ranges, ratio, gap floor and limit", "why_tests_cant": "the greedy partition depends on the whole list of ranges", "anchors": ["checkpoint/orbax/checkpoint/experimental/v1/_src/layout/safetensors_layout.py: _partition_runs, _auto_over_read_ratio"]}
{"id": "C81", "title": "The handler that saved a checkpointable is the handler that loads it", "statement": "Registering handlers gives every name at most one handler, a local registry is an exact copy, a value is saved by the handler registered for its name or else by the latest registered one that accepts it, and a later load of that name, without a template or with one the handler accepts, is done by the same handler.", "quantifier": "every sequence of registrations, every name, value, template and set of handler capabilities", "why_tests_cant": "The result depends on the order and combination of all registrations, names, secondary type strings and capabilities, which tests sample.", "anchors": ["checkpoint/orbax/checkpoint/experimental/v1/_src/handlers/registration.py: add, local_registry, resolve_handler_for_save, resolve_handler_for_load", "checkpoint/orbax/checkpoint/experimental/v1/_src/handlers/resolution.py: get_handlers_for_save, get_handlers_for_load"]}
{"id": "C82", "title": "Checkpointables saved under names are what is loaded by name", "statement": "save_checkpointables followed by load_checkpointables returns exactly the saved values (all of them, or the requested ones in the requested order); missing, empty and reserved names are refused; loading without a name picks the tree called state, else the alphabetically first tree; incomplete checkpoints are refused.", "quantifier": "every set of names and values, every order of listing the directory, every request, every state of a directory", "why_tests_cant": "Names, listing orders and directory states are unbounded.", "anchors": ["checkpoint/orbax/checkpoint/experimental/v1/_src/layout/orbax_layout.py: OrbaxLayout", "checkpoint/orbax/checkpoint/experimental/v1/_src/layout/orbax_v0_layout.py: OrbaxV0Layout", "checkpoint/orbax/checkpoint/experimental/v1/_src/layout/registry.py: get_checkpoint_layout, CheckpointLayoutResolver", "checkpoint/orbax/checkpoint/experimental/v1/_src/saving/execution.py: save_checkpointables_impl", "checkpoint/orbax/checkpoint/experimental/v1/_src/loading/loading.py: load, load_checkpointables"]}
{"id": "C83", "title": "The training checkpointer reports a save only when it is complete, and never trades an old checkpoint for nothing", "statement": "With the v1 training Checkpointer, result() of an asynchronous save reports success only if that save's checkpoint was written completely and (unless the preservation policy rejects it) is in storage; if the policy always keeps the newest checkpoint and saves use new steps, a directory that contains a checkpoint contains one at every moment. latest is the checkpoint with the greatest step; load reads the requested or the latest step; a save of an existing step raises and changes nothing unless overwriting is asked for; a save skipped by policy changes nothing; a forced overwrite leaves exactly the new checkpoint. False in general: a save call made before the previous finalize thread's first step makes result() report success for an incomplete save and delete the old checkpoint; save(overwrite=True) without force deletes the checkpoint and may then skip the save; load() fails while a save is being written; lightweight_initialize makes every call raise.", "quantifier": "all save decision and preservation policies, all existing checkpoints, all histories of save, result and background-thread events in every order, all failures of writing", "why_tests_cant": "The errors depend on the moment at which a background thread first runs, on which of two objects it reads, and on the relation of the overwritten step to all other steps; tests run one schedule.", "anchors": ["/repo/checkpoint/orbax/checkpoint/experimental/v1/_src/training/checkpointer.py: Checkpointer.save_checkpointables_async, latest, checkpoints, _resolve_existing_checkpoint, load_checkpointables, _AsyncSaveResponse", "/repo/checkpoint/orbax/checkpoint/checkpoint_manager.py: CheckpointManager.save, _finalize, _wait_for_checkpointers, wait_until_finished, delete, should_save, _load_checkpoint_infos"]}
{"id": "C84", "title": "Model surgery moves every parameter to where the transformation says and loses none", "statement": "stack puts the parameter with index i of a group at position i of the chosen axis of the stacked parameter, for every group, fills missing positions with the filler (or raises if there is none), keeps unmatched parameters, and removes from the caller's dictionary exactly the matched parameters when asked to work in place. fuse concatenates the parts in the order given, removes them and keeps the rest. repeat repeats exactly the chosen parameters. rename keeps every parameter under its new name. False in general: with a filler an item whose index is not below the expected count is dropped; an unmatched parameter with the name of a stack or fused parameter is silently replaced; two parameters renamed to one name leave one; an in-place stack that raises has already removed the parameters; with a filler a negative axis fails; a key named twice is repeated twice; a target sharding that cuts another axis than the stacking axis makes the streaming stack return shards of the wrong shape.", "quantifier": "all parameter dictionaries, patterns (any classification of keys), shapes, axes, counts, fillers, orders of keys, renaming rules, and all shards of the stacked array", "why_tests_cant": "Collisions, gaps and overfull groups depend on the relation of all keys to each other; element positions must be right for every shape and axis.", "anchors": ["/repo/checkpoint/orbax/checkpoint/experimental/model_surgery/transformations/stacking.py: stack, _streaming_stack", "/repo/checkpoint/orbax/checkpoint/experimental/model_surgery/transformations/fusing.py: fuse_by_pattern, fuse_by_keys, _fuse_keys", "/repo/checkpoint/orbax/checkpoint/experimental/model_surgery/transformations/repeating.py: repeat_by_pattern, repeat_by_keys", "/repo/checkpoint/orbax/checkpoint/experimental/model_surgery/transformations/renaming.py: rename_by_regex"]}
{"id": "C85", "title": "A tree that was saved is restored, in whole, in part or with placeholders", "statement": "Saving a tree through the PyTree handler succeeds exactly if it is not an empty container as a whole and every leaf has a type handler. Whatever the order in which its parameters are written, restoring it without an item gives every saved value at its place, in dictionaries and lists. Restoring with an item succeeds exactly if item and checkpoint have leaves and containers at the same paths, and gives the item's containers with the saved values; with restore types each such leaf is read by the handler of that type. A partial restore succeeds exactly if the item fits where both have something, restores what both have and keeps the item's own values elsewhere. With placeholders, restoring succeeds exactly if item and checkpoint agree apart from placeholders that are missing in saved dictionaries; placeholders stay and everything else is restored. False in general: two parameters whose names joined by dots are equal lose a value; an empty container in the item hides a saved value and a saved empty container replaces an array without an error; partial restore restores placeholders and cannot restore an empty dictionary; a placeholder in a longer list or in a container that was not saved makes restoring fail.", "quantifier": "all trees of dictionaries, lists, tuples, named tuples and registered classes of any depth, all values and type handlers that read back what they wrote, all orders of writing, all items and restore types", "why_tests_cant": "Success and result depend on how the item's tree relates to the saved one at every path; tests fix a handful of trees and one order of writing.", "anchors": ["/repo/checkpoint/orbax/checkpoint/_src/handlers/base_pytree_checkpoint_handler.py: async_save, restore, _partial_restore_with_omission, _partial_restore_with_placeholders, _maybe_deserialize, batched_serialization_requests, _fill_missing_save_or_restore_args", "/repo/checkpoint/orbax/checkpoint/_src/tree/structure_utils.py: tree_difference, tree_trim", "/repo/checkpoint/orbax/checkpoint/_src/tree/utils.py: deserialize_tree, serialize_tree"]}
{"id": "C86", "title": "Restoring a PyTree with transforms", "statement": "Restoring a saved PyTree with an item and transforms gives a tree with the item's containers in which every leaf has what the transforms describe: a leaf matched by a renaming transform has the saved value of the original name, one that is matched by a fallback transform keeps the item's value, one matched by no transform has the saved value of its own name (by default, if there is one), each restored with the arguments given for it; functions are applied to what was saved. Only values that some leaf or declared input needs are read. Restoring fails exactly if a matching transform names a value the checkpoint does not have, or cannot be applied.", "quantifier": "all saved trees, codecs, items, restore arguments, sets of transforms, regular expression matchers and both defaults", "why_tests_cant": "The result depends on the interplay of arbitrary patterns, trees and defaults, and whether a value was needed but not read shows only for particular combinations of transforms.", "anchors": ["checkpoint/orbax/checkpoint/_src/handlers/pytree_checkpoint_handler.py:_find_matching_input_args", "checkpoint/orbax/checkpoint/_src/handlers/pytree_checkpoint_handler.py:_has_use_fallback_transform", "checkpoint/orbax/checkpoint/_src/handlers/pytree_checkpoint_handler.py:_get_restore_parameters", "checkpoint/orbax/checkpoint/_src/handlers/pytree_checkpoint_handler.py:_transform_checkpoint", "checkpoint/orbax/checkpoint/_src/handlers/pytree_checkpoint_handler.py:PyTreeCheckpointHandler.restore"]}
{"id": "C87", "title": "Replicator manager: state and dataset of a step", "statement": "With ReplicatorCheckpointManager, whatever was saved, deleted or lost and however often the job restarted with other device ids, a restore of a step that succeeds returns the requested items, every array being the one given to the last save that stored the step, with each shard on the device at its position in the mesh; and the dataset returned is the one given to the same save. A listed step can be restored while hosts have the same numbers of devices; after resizing, or if the step is not listed, restoring raises. Without a step the highest one is restored.", "quantifier": "all histories of saves (forced or not, preempted or not, with and without dataset), deletions and restarts that lose any local steps and renumber devices; all save decisions and preservation policies; all restore arguments", "why_tests_cant": "Two managers with separate decisions, clocks and losses have to agree on every step in every history; tests fix a history.", "anchors": ["checkpoint/orbax/checkpoint/experimental/emergency/multi_tier_checkpointing/replicator_checkpoint_manager.py:_ReplicatorLocalCheckpointEngine.save", "checkpoint/orbax/checkpoint/experimental/emergency/multi_tier_checkpointing/replicator_checkpoint_manager.py:_ReplicatorLocalCheckpointEngine.delete", "checkpoint/orbax/checkpoint/experimental/emergency/multi_tier_checkpointing/replicator_checkpoint_manager.py:_ReplicatorLocalCheckpointEngine._restore_single_step", "checkpoint/orbax/checkpoint/experimental/emergency/multi_tier_checkpointing/replicator_checkpoint_manager.py:_ReplicatorLocalCheckpointEngine._restore_placement_plan", "checkpoint/orbax/checkpoint/experimental/emergency/multi_tier_checkpointing/replicator_checkpoint_manager.py:_ReplicatorLocalCheckpointEngine._get_mesh_consistent_args", "checkpoint/orbax/checkpoint/experimental/emergency/multi_tier_checkpointing/replicator_checkpoint_manager.py:_can_use_mesh_consistency", "checkpoint/orbax/checkpoint/experimental/emergency/multi_tier_checkpointing/replicator_checkpoint_manager.py:ReplicatorCheckpointManager._validate_and_standardize_args", "checkpoint/orbax/checkpoint/experimental/emergency/mesh_consistency.py:consistent_restore_mesh_from_metadata"]}
{"id": "C88", "title": "An array survives saving and restoring under any shardings", "statement": "An array saved from any sharding over any number of processes, with any replica, storage-type and chunk settings, with or without OCDBT and whatever the interleaving of chunk reads and writes and the order in which the databases of the processes are copied together, is restored under any other sharding over any number of processes: each addressable device, and no other, gets its part, each element converted to the storage type and then to the requested type; with padding and truncation allowed the array is cut or filled up with zeros at the end of each axis, otherwise another shape is refused. Every chunk is written by one process, whole. If the save was interrupted at any point, a restore fails or returns the right values. Chunks respect the chunk size and data file size asked for, and a read reserves the bytes of the chunks it fetches. A sharding in the arguments takes precedence over a mesh with axes.", "quantifier": "all arrays of any rank and shape, all placements of their parts on processes and replicas that form a grid (as all jax shardings do), all save settings, all schedules and interruptions, all target shardings, shapes, processes and conversions", "why_tests_cant": "The pairs of shardings, chunk shapes and schedules cannot be enumerated; a lost update between two processes depends on timing.", "anchors": ["checkpoint/orbax/checkpoint/_src/serialization/serialization.py:async_serialize_from_host", "checkpoint/orbax/checkpoint/_src/serialization/serialization.py:_read_shard", "checkpoint/orbax/checkpoint/_src/serialization/serialization.py:_read_array_index_and_device_put", "checkpoint/orbax/checkpoint/_src/serialization/serialization.py:_read_and_create_array", "checkpoint/orbax/checkpoint/_src/serialization/serialization.py:async_deserialize", "checkpoint/orbax/checkpoint/_src/serialization/serialization.py:estimate_read_memory_footprint", "checkpoint/orbax/checkpoint/_src/serialization/tensorstore_utils.py:build_array_write_spec", "checkpoint/orbax/checkpoint/_src/serialization/tensorstore_utils.py:calculate_chunk_byte_size", "checkpoint/orbax/checkpoint/_src/serialization/ocdbt_utils.py:merge_ocdbt_per_process_files", "checkpoint/orbax/checkpoint/_src/serialization/jax_array_handlers.py:_async_serialize_replica_slices", "checkpoint/orbax/checkpoint/_src/serialization/jax_array_handlers.py:_deserialize_shardings", "checkpoint/orbax/checkpoint/_src/serialization/jax_array_handlers.py:_deserialize_arrays", "checkpoint/orbax/checkpoint/_src/serialization/jax_array_restore_args.py:ArrayRestoreArgs"]}
{"id": "C89", "title": "StandardCheckpointHandler returns leaves as they were saved, or as the target asks", "statement": "A tree of arrays and numbers saved with StandardCheckpointHandler and restored with itself as the target comes back equal: the same keys, and leaves of the same types, shapes, shardings and values. Restored without a target, every leaf comes back as it was stored: jax.Arrays with their sharding, or the fallback sharding if their devices no longer exist, and an error if there is none; numbers as numbers. With any other target, the restore succeeds exactly if target and checkpoint have the same keys, the leaves of the target are of accepted kinds and each can be read, and then each leaf has the type, shape and sharding the target asks for and the saved elements, converted, cut or filled up with zeros only when strict is off. A shape that differs from the saved one is refused when strict.", "quantifier": "all trees, leaf types, element values and conversions, all save arguments without cast, all targets, shardings, available devices and fallbacks, strict or not", "why_tests_cant": "The combinations of leaf types, target types, shardings and shapes cannot be enumerated.", "anchors": ["checkpoint/orbax/checkpoint/_src/handlers/standard_checkpoint_handler.py:StandardCheckpointHandler.async_save", "checkpoint/orbax/checkpoint/_src/handlers/standard_checkpoint_handler.py:StandardCheckpointHandler.restore", "checkpoint/orbax/checkpoint/_src/handlers/standard_checkpoint_handler.py:_get_sharding_for_target_leaf", "checkpoint/orbax/checkpoint/checkpoint_utils.py:construct_restore_args", "checkpoint/orbax/checkpoint/_src/serialization/type_handlers.py:NumpyHandler", "checkpoint/orbax/checkpoint/_src/serialization/type_handlers.py:ScalarHandler", "checkpoint/orbax/checkpoint/_src/serialization/type_handler_registry.py:_DEFAULT_TYPE_HANDLERS"]}
{"id": "C90", "title": "Contexts are scoped to their block, frozen while active and independent of each other", "statement": "Inside a `with ocp.Context(...)` block the context of the innermost open block of the thread is the active one, whatever happens there or elsewhere, and when the block is left, normally or by an exception, the thread is as before. A new thread has no active context; a task starts with the context where it was created. While a block is open, no assignment changes an option of its context. A new context takes each option from the argument, else from the parent, else the default; afterwards changes to the parent or the arguments do not change it, nor its changes them, and its options can be set even inside other blocks. A Checkpointer copies the context given to it and uses it for all its calls.", "quantifier": "all object graphs of options with any sharing between contexts, all histories of creating, entering, leaving, assigning, threads and tasks", "why_tests_cant": "Histories, nestings, threads and object graphs are unbounded.", "anchors": ["checkpoint/orbax/checkpoint/experimental/v1/_src/context/context.py:Context", "checkpoint/orbax/checkpoint/experimental/v1/_src/context/context.py:get_context", "checkpoint/orbax/checkpoint/experimental/v1/_src/context/context.py:_get_option", "checkpoint/orbax/checkpoint/experimental/v1/_src/context/context.py:_collect_ids", "checkpoint/orbax/checkpoint/experimental/v1/_src/context/options.py:_ActiveContextGuard", "checkpoint/orbax/checkpoint/experimental/v1/_src/training/checkpointer.py:Checkpointer"]}
{"id": "C91", "title": "The list of checkpoints of a manager is thread-safe", "statement": "Threads may call set, append, delete_if, latest and loop over the list of checkpoints in any interleaving: the calls take effect one after the other, in an order that respects the order of the calls, each with the answer it has alone at that moment; nothing is lost. A loop sees the list as it was when the loop began. The lock is released by whoever leaves a guarded block, so a thread that has run into the timeout can try again later.", "quantifier": "all numbers of threads, calls, predicates and contents, all interleavings of their steps and all timeouts", "why_tests_cant": "The interleavings are unbounded and tests do not control the scheduler.", "anchors": ["checkpoint/orbax/checkpoint/_src/metadata/checkpoint_info.py:CheckpointInfos", "checkpoint/orbax/checkpoint/_src/threading.py:TimeoutRLock"]}
{"id": "C92", "title": "String leaves are restored", "statement": "All string leaves of a tree are saved together, and each is restored under its name as it was, whatever the names and the strings are; a name that was not saved gives no string.", "quantifier": "all sets of names and strings, any order of writing", "why_tests_cant": "The names are unbounded and their interactions in the shared document show only for particular pairs.", "anchors": ["checkpoint/orbax/checkpoint/_src/serialization/type_handlers.py:StringHandler", "checkpoint/orbax/checkpoint/experimental/v1/_src/serialization/string_leaf_handler.py:StringLeafHandler"]}
{"id": "C93", "title": "msgpack_restore gives back what msgpack_serialize was given", "statement": "For every tree of dictionaries, lists, tuples, primitives and arrays that msgpack_serialize accepts, msgpack_restore of the bytes is that tree with NumPy arrays for JAX arrays; arrays of any size are accepted as the whole tree or in dictionaries.", "quantifier": "all trees, array sizes and element sizes, any chunk size and any limit of the format", "why_tests_cant": "Chunks appear only above a gigabyte, and the nesting of dictionaries, lists and tuples is unbounded.", "anchors": ["checkpoint/orbax/checkpoint/msgpack_utils.py:msgpack_serialize", "checkpoint/orbax/checkpoint/msgpack_utils.py:msgpack_restore", "checkpoint/orbax/checkpoint/msgpack_utils.py:_chunk_array_leaves_in_place", "checkpoint/orbax/checkpoint/msgpack_utils.py:_unchunk_array_leaves_in_place", "checkpoint/orbax/checkpoint/msgpack_utils.py:_ndarray_to_bytes"]}
{"id": "C94", "title": "Snapshots in host memory", "statement": "States that save accepts are taken in order, each once, with at most two in flight; join returns only when all of them have been dealt with; latest is always a whole state with its step that was saved and kept; load returns the values saved for that step as long as one replica is left; with growing steps the latest step never goes back.", "quantifier": "all interleavings of any number of threads calling save, load and join with the worker thread, all failures of the worker and losses of replicas", "why_tests_cant": "The interleavings of the worker with loads and saves are unbounded and a test meets only a few.", "anchors": ["checkpoint/orbax/checkpoint/experimental/v1/_src/training/pathways/snapshotter.py:Snapshotter.save", "checkpoint/orbax/checkpoint/experimental/v1/_src/training/pathways/snapshotter.py:Snapshotter.load", "checkpoint/orbax/checkpoint/experimental/v1/_src/training/pathways/snapshotter.py:Snapshotter.join", "checkpoint/orbax/checkpoint/experimental/v1/_src/training/pathways/snapshotter.py:Snapshotter.latest", "checkpoint/orbax/checkpoint/experimental/v1/_src/training/pathways/snapshotter.py:Snapshotter._worker"]}
{"id": "C95", "title": "A leaf is handled by the most specific registered handler", "statement": "After any calls of add, the handler found for a leaf type is registered for one of its base classes and no registered base class is more specific; a registered leaf type and its abstract type get the same handler; the order of registration does not matter where one base class is most specific; add refuses exactly the conflicts, or removes exactly them when overriding; the V0 registry made from it finds the same handlers.", "quantifier": "all class hierarchies and protocols, all histories of registrations, all types looked up", "why_tests_cant": "The scores interact for every combination of registered classes; tests register a few.", "anchors": ["checkpoint/orbax/checkpoint/experimental/v1/_src/serialization/registry.py:BaseLeafHandlerRegistry.add", "checkpoint/orbax/checkpoint/experimental/v1/_src/serialization/registry.py:BaseLeafHandlerRegistry.get", "checkpoint/orbax/checkpoint/experimental/v1/_src/serialization/registry.py:BaseLeafHandlerRegistry.get_abstract", "checkpoint/orbax/checkpoint/experimental/v1/_src/serialization/registry.py:StandardLeafHandlerRegistry", "checkpoint/orbax/checkpoint/experimental/v1/_src/serialization/compatibility.py:get_v0_type_handler_registry"]}
{"id": "C96", "title": "A validation report passes exactly when the exported model's outputs agree", "statement": "For a JAX model and an exported model whose outputs have the same names and forms, the report says Pass exactly when every floating-point output is within floating_atol + floating_rtol * |baseline| of the baseline, and the part of the other outputs that differ is at most max_non_floating_mismatch_ratio.", "quantifier": "all models, inputs, outputs, tolerances and ratios", "why_tests_cant": "The verdict depends on every combination of outputs and options; tests try a few with equal tolerances.", "anchors": ["export/orbax/export/validate/validation_manager.py:ValidationManager.validate", "export/orbax/export/validate/validation_report.py:ValidationReport.__init__", "export/orbax/export/validate/validation_job.py:ValidationSingleJobResult.maybe_convert_result_to_dict", "export/orbax/export/validate/validation_utils.py:split_tf_floating_and_discrete_groups"]}
{"id": "C97", "title": "An exported signature computes what its serving configuration says, with the parameters of the last update", "statement": "An ExportManager accepts serving configurations exactly when each has a signature key and names a function of the module and no key is used twice. The signature of each key then computes pre-processing, the named function, post-processing (passing the extra output of the pre-processor to the post-processor when asked), on the parameters of the last successful update_variables. An update is accepted exactly when the new parameters have the structure, shapes and types of the original ones, and a refused update changes nothing. A saved model computes what the signatures computed when it was saved, whatever is updated or saved elsewhere later, and the baseline of validation computes the same.", "quantifier": "all modules, functions, serving configurations, histories of updates and saves, inputs", "why_tests_cant": "Every combination of configurations and every history of updates matters; tests have one or two configurations and no refused update followed by a call.", "anchors": ["export/orbax/export/export_manager.py:ExportManager", "export/orbax/export/tensorflow_export.py:TensorFlowExport", "export/orbax/export/serving_config.py:ServingConfig.bind", "export/orbax/export/serving_config.py:ServingConfig.get_infer_step", "export/orbax/export/modules/tensorflow_module.py:TensorFlowModule.update_variables", "export/orbax/export/obm_export.py:ObmExport.save", "export/orbax/export/validate/validation_manager.py:ValidationManager._create_baseline_fns"]}
{"id": "C98", "title": "Default values and auto-batching of the inputs of a signature", "statement": "A signature is accepted exactly when each parameter has default values for all of its tensors or for none and the parameters with default values come last. A call then succeeds exactly when no argument is given twice or for an unknown parameter and every parameter without default values is given; the function gets the given values and the default values for the rest. An auto-batching function succeeds exactly when all primary tensors have the same number of rows and each other tensor has that many or one; all results have that many rows, a single row being repeated.", "quantifier": "all signatures, structures, calls with positional and keyword arguments, numbers of rows", "why_tests_cant": "Tests try a few signatures with one or two parameters.", "anchors": ["export/orbax/export/utils.py:TensorSpecWithDefault", "export/orbax/export/utils.py:with_default_args", "export/orbax/export/utils.py:_get_defaults", "export/orbax/export/utils.py:make_auto_batching_function", "export/orbax/export/utils.py:_repeat_to_batch"]}
{"id": "C99", "title": "A saved map of exported functions is loaded as it was, or not at all", "statement": "load_jax_exported_map after save_jax_exported_map gives the same functions under the same keys, for every path, map and set of keys; saving never overwrites anything; after an interrupted save, loading fails or gives everything, and the save can be repeated.", "quantifier": "all file systems, paths, maps and points of interruption", "why_tests_cant": "Tests use absolute temporary directories, plain keys and no interruption.", "anchors": ["export/orbax/export/utils.py:save_jax_exported_map", "export/orbax/export/utils.py:load_jax_exported_map", "export/orbax/export/utils.py:_save_jax_exported_to_disk", "export/orbax/export/utils.py:_load_jax_exported_from_disk"]}
{"id": "C100", "title": "Nobody is given a directory before it has been made, and it is made once", "statement": "However many coroutines in however many processes wait for the directories of a save, on every schedule: each directory is made at most once, the temporary directory first; when await_creation returns, in any process, the temporary directory and all subdirectories exist; and waiting does not block for good while the creation does not fail.", "quantifier": "all numbers of processes, coroutines and subdirectories, all schedules and failures", "why_tests_cant": "The interleavings of coroutines, processes and the barrier, and the points of failure, are unbounded.", "anchors": ["checkpoint/orbax/checkpoint/experimental/v1/_src/path/async_utils.py:PathAwaitingCreation.create", "checkpoint/orbax/checkpoint/experimental/v1/_src/path/async_utils.py:PathAwaitingCreation.await_creation", "checkpoint/orbax/checkpoint/experimental/v1/_src/path/async_utils.py:_create_paths"]}
{"id": "C101", "title": "A JSON checkpointable is restored as it was saved", "statement": "What is restored with the JSON handlers is what save was given: for every value that is accepted, whichever host writes first, whichever of the two versions of the handler reads it, and whatever the program does to the object after save has returned.", "quantifier": "all values, orders of hosts, file names, actions of the program while the save is in the background", "why_tests_cant": "Tests save a few dictionaries of numbers and never change them while the save is running.", "anchors": ["checkpoint/orbax/checkpoint/_src/handlers/json_checkpoint_handler.py:JsonCheckpointHandler", "checkpoint/orbax/checkpoint/experimental/v1/_src/handlers/json_handler.py:JsonHandler"]}
{"id": "C102", "title": "Checkpoints are ranked by the metrics they were saved with", "statement": "The metrics by which a CheckpointManager ranks and deletes a checkpoint are those given to the save of that checkpoint. So with BestN the best checkpoint ever saved, or one as good, is in storage, and the manager and a manager created anew agree on the metrics.", "quantifier": "all programs that assign to metrics, save and let saves commit, in any order; all n and both directions of best_fn", "why_tests_cant": "Tests pass a literal dictionary to each save.", "anchors": ["checkpoint/orbax/checkpoint/checkpoint_manager.py:CheckpointManager.save", "checkpoint/orbax/checkpoint/checkpoint_manager.py:CheckpointManager._add_checkpoint_info", "checkpoint/orbax/checkpoint/checkpoint_manager.py:CheckpointManager._load_checkpoint_infos", "checkpoint/orbax/checkpoint/_src/checkpoint_managers/preservation_policy.py:BestN"]}
{"id": "C103", "title": "A random key is restored as the same key", "statement": "Restoring what JaxRandomKeySave or NumpyRandomKeySave saved gives the same key, typed or not, of whatever implementation, alone or in a batch: the same data and the same implementation.", "quantifier": "all keys, batches, key implementations and default implementations at the time of saving and of restoring; all NumPy generator states", "why_tests_cant": "Tests use one key of the default implementation.", "anchors": ["checkpoint/orbax/checkpoint/_src/handlers/random_key_checkpoint_handler.py:BaseRandomKeyCheckpointHandler", "checkpoint/orbax/checkpoint/_src/handlers/random_key_checkpoint_handler.py:JaxRandomKeyCheckpointHandler", "checkpoint/orbax/checkpoint/_src/handlers/random_key_checkpoint_handler.py:NumpyRandomKeyCheckpointHandler"]}
{"id": "C104", "title": "A save done by worker sidecars is finished, or its failure is raised, before the next one starts", "statement": "With Pathways multi-tier checkpointing a save is sent to the workers only when every earlier save has been answered by all of them, its dataset state has been saved exactly once, for its step, and the workers have been asked to finish; the payload is kept until they answered. wait_until_finished, close and is_saving_in_progress tell the truth about this, and a failure is raised to the caller and affects only that save. latest_step is the highest step that every worker has, and it can be restored with its dataset state.", "quantifier": "all sequences of calls, all interleavings with the background thread, all answers and failures of the workers and of the persistent manager, all sets of steps on the workers", "why_tests_cant": "The outcome depends on when the background thread ends, on which of several parties fail, and on the history of earlier failures.", "anchors": ["checkpoint/orbax/checkpoint/experimental/emergency/multi_tier_checkpointing/colocated_controller.py:_ControllerSaveHandoffLifecycle", "checkpoint/orbax/checkpoint/experimental/emergency/multi_tier_checkpointing/colocated_controller.py:ColocatedController.save", "checkpoint/orbax/checkpoint/experimental/emergency/multi_tier_checkpointing/colocated_controller.py:ColocatedController.latest_step", "checkpoint/orbax/checkpoint/experimental/emergency/multi_tier_checkpointing/colocated_utils.py:require_unanimous_scalar_result", "checkpoint/orbax/checkpoint/experimental/emergency/multi_tier_checkpointing/sidecar_worker_checkpoint_manager.py:WorkerCheckpointManagerRaw.all_steps"]}
{"id": "C105", "title": "Every node is told a rank of its own and exactly one peer in every other slice", "statement": "Multi-tier checkpointing initialisation tells the replicator service on every node the node's own rank and, as peers, exactly the ranks of the nodes at the same place in the other slices: one for each other slice, never itself, never twice, and mutually. On Pathways, ranks do not depend on the order in which devices are listed, every device belongs to the worker of its task and slice, a topology that is not a full grid of tasks and slices is refused, and device ids are renumbered one for one.", "quantifier": "all numbers of nodes and slices, all maps from process index to node rank, all lists of devices in any order, all topologies", "why_tests_cant": "The numbering must be consistent between all nodes for every cluster size, every permutation of ranks and every order of devices.", "anchors": ["checkpoint/orbax/checkpoint/experimental/emergency/multi_tier_checkpointing/initialization.py:_validate_replicator_ranks", "checkpoint/orbax/checkpoint/experimental/emergency/multi_tier_checkpointing/initialization.py:_validate_node_rank_by_process_index", "checkpoint/orbax/checkpoint/experimental/emergency/multi_tier_checkpointing/initialization.py:initialize_multi_tier_checkpointing", "checkpoint/orbax/checkpoint/experimental/emergency/multi_tier_checkpointing/pathways_topology.py:Topology.from_devices", "checkpoint/orbax/checkpoint/experimental/emergency/multi_tier_checkpointing/pathways_topology.py:Topology.validate_num_slices", "checkpoint/orbax/checkpoint/experimental/emergency/multi_tier_checkpointing/pathways_topology.py:Topology.peer_ranks_by_worker_rank", "checkpoint/orbax/checkpoint/experimental/emergency/multi_tier_checkpointing/pathways_topology.py:remap_nested_device_ids", "checkpoint/orbax/checkpoint/_src/multihost/pathways.py:group_devices_by_worker"]}
{"id": "C106", "title": "The replicator's answer is read exactly: the newest announced step becomes the step directory, failures are raised", "statement": "initialize_multi_tier_checkpointing hands one complete request to the replicator service, after any pending one was taken, waits until it is taken, and then turns the service's answer into the local directory: the highest step announced for this job becomes the directory of that step, all markers are removed, an answer that there is no checkpoint leaves the directory without one, no other file changes, and a failure reported for this request is raised. Without an answer the call ends with a timeout.", "quantifier": "all contents of the local directory, all names of jobs and files, all behaviours of the service between polls, all timeouts", "why_tests_cant": "Names of jobs are arbitrary text around the numbers; the service may act at any poll, and files of earlier runs and other jobs may be left over.", "anchors": ["checkpoint/orbax/checkpoint/experimental/emergency/multi_tier_checkpointing/initialization.py:_block_and_process_restore_dir", "checkpoint/orbax/checkpoint/experimental/emergency/multi_tier_checkpointing/initialization.py:_extract_step", "checkpoint/orbax/checkpoint/experimental/emergency/multi_tier_checkpointing/initialization.py:_check_for_replicator_errors", "checkpoint/orbax/checkpoint/experimental/emergency/multi_tier_checkpointing/initialization.py:_wait_for_replicator_file_to_disappear", "checkpoint/orbax/checkpoint/experimental/emergency/multi_tier_checkpointing/initialization.py:_create_replicator_file", "checkpoint/orbax/checkpoint/experimental/emergency/multi_tier_checkpointing/initialization.py:_retrieve_jax_init_info", "checkpoint/orbax/checkpoint/experimental/emergency/multi_tier_checkpointing/initialization.py:initialize_multi_tier_checkpointing"]}
{"id": "C107", "title": "Parameters are written, merged and read at one place, which belongs to them alone", "statement": "Given a checkpoint directory, every process writes its part of every parameter under that directory, in a place no other process writes to; merging makes exactly what all processes wrote readable under the directory and the parameter's name; a merge with validation succeeds exactly if every parameter has its metadata and its data; different parameters, and the shardings recorded for them, never share a place.", "quantifier": "all directories in the file system or in a bucket and their spellings, all parameter names, all numbers and identifiers of processes, all entries they write, all orders of listing", "why_tests_cant": "Places are computed by text manipulation of arbitrary directory and parameter names, and parsed back from directory names; tests use a few names.", "anchors": ["checkpoint/orbax/checkpoint/_src/serialization/tensorstore_utils.py:build_kvstore_tspec", "checkpoint/orbax/checkpoint/_src/serialization/tensorstore_utils.py:build_kvstore_tspec_for_merge", "checkpoint/orbax/checkpoint/_src/serialization/tensorstore_utils.py:ArrayReadSpec", "checkpoint/orbax/checkpoint/_src/serialization/tensorstore_utils.py:ArrayWriteSpec", "checkpoint/orbax/checkpoint/_src/serialization/tensorstore_utils.py:get_sharding_tensorstore_spec", "checkpoint/orbax/checkpoint/_src/serialization/ocdbt_utils.py:merge_ocdbt_per_process_files", "checkpoint/orbax/checkpoint/_src/serialization/ocdbt_utils.py:_validate_params", "checkpoint/orbax/checkpoint/_src/serialization/ocdbt_utils.py:get_process_index_for_subdir"]}
{"id": "C108", "title": "A leaf is stored with the options given for it and loaded as the type that is asked for", "statement": "With the V1 API, each storage option of a leaf is the one given for that leaf, else the one given for all leaves. A tree is saved exactly if every leaf is of a documented type, and without a storage type it comes back as it was when no abstract tree is given. Loading with an abstract leaf either fails or gives a value of the Python type, element type, shape and sharding the abstract leaf names, with the stored elements converted; without padding another shape is refused. The metadata of a saved tree can always be read, and loading with it as the abstract tree gives what loading without one gives.", "quantifier": "all leaves of the standard types, all storage options for all and for single leaves, all abstract leaves given as values or types, all element types and conversions, all shardings and available devices", "why_tests_cant": "The table of stored types by abstract leaves by options is large and some entries are reached only through attributes classes happen to have; tests cover a few pairs.", "anchors": ["checkpoint/orbax/checkpoint/experimental/v1/_src/serialization/options_resolution.py:resolve_storage_options", "checkpoint/orbax/checkpoint/experimental/v1/_src/serialization/array_leaf_handler.py:ArrayLeafHandler", "checkpoint/orbax/checkpoint/experimental/v1/_src/serialization/numpy_leaf_handler.py:NumpyLeafHandler", "checkpoint/orbax/checkpoint/experimental/v1/_src/serialization/scalar_leaf_handler.py:ScalarLeafHandler", "checkpoint/orbax/checkpoint/experimental/v1/_src/serialization/compatibility.py:CompatibleTypeHandler", "checkpoint/orbax/checkpoint/experimental/v1/_src/serialization/registry.py:StandardLeafHandlerRegistry", "checkpoint/orbax/checkpoint/experimental/v1/_src/handlers/pytree_handler.py:_restore_type_by_abstract_type", "checkpoint/orbax/checkpoint/experimental/v1/_src/handlers/pytree_handler.py:PyTreeHandler", "checkpoint/orbax/checkpoint/_src/serialization/type_handlers.py:ScalarHandler"]}
{"id": "C109", "title": "A background operation is waited for, its outcome is handed on, and its thread ends", "statement": "A background event loop takes coroutines exactly until it is shut down. When a waiting shutdown returns, every coroutine handed over has ended, its future has its outcome, and nothing runs in the background any more; a waiting shutdown can always return, and with cancellation it does not wait for what suspended coroutines wait for. A shutdown that does not wait lets the coroutines go on to their end. The response of a background save or load gives each caller of result() the value, error or cancellation of the operation, or TimeoutError only while the operation has not ended; each callback is called exactly as often as it was registered, with the value, after the end. Once the operation has ended every caller gets its answer, and the thread made for the operation ends.", "quantifier": "all numbers of coroutines, what they do and start, all interleavings of the threads that submit, shut down, ask for results and register callbacks with the steps of the event loop", "why_tests_cant": "The outcome depends on the order in which callbacks of the loop and several threads interleave, and on whether coroutines fail, are cancelled or start others at that time; tests run one schedule.", "anchors": ["checkpoint/orbax/checkpoint/_src/asyncio_utils.py:AsyncRunner", "checkpoint/orbax/checkpoint/experimental/v1/_src/synchronization/thread_utils.py:BackgroundThreadRunner", "checkpoint/orbax/checkpoint/experimental/v1/_src/synchronization/types.py:AsyncResponse"]}
{"id": "C110", "title": "Deleting a directory in Google Cloud Storage removes it completely and nothing else", "statement": "In a bucket with a hierarchical namespace, deleting a directory removes all objects and all folders at or below it and nothing else, whatever the depth of the tree; no request is refused, since folders are deleted after everything below them. If objects are written meanwhile, they and the folders they lie in stay, and an error is raised. Deleting always ends. Directories whose names begin alike are not confused. Listing the steps of a directory finds exactly the directories in it whose names begin with the step prefix. This holds for every directory of the bucket, with every name.", "quantifier": "all buckets with folders nested to any depth, all directories, names and bucket names, all orders in which a set of folders is gone through", "why_tests_cant": "The order of deletions depends on the tree and on the order of sets, and names are cut out of strings; the unit test mocks the service, checks one tree of four folders and not the order.", "anchors": ["checkpoint/orbax/checkpoint/_src/path/gcs_utils.py:parse_gcs_path", "checkpoint/orbax/checkpoint/_src/path/gcs_utils.py:cleanup_hns_folders", "checkpoint/orbax/checkpoint/_src/path/gcs_utils.py:rmtree", "checkpoint/orbax/checkpoint/_src/path/step.py:_StandardNameFormat._glob_step_paths"]}
{"id": "C111", "title": "Values moved to the CPUs of the hosts and back stay what and where they are", "statement": "When values and arguments are moved from accelerators to the CPUs of their hosts, structure, shapes, dtypes, values, specs and memory kinds stay; each device is replaced by the CPU of its host. Copying arrays to the CPUs and back restores them. A mesh or a list of device ids sent to a worker arrives in the same order on exactly the CPUs it names there; if a number could mean two CPUs, or means none that the worker sees, an error is raised and never a wrong CPU used. This holds however shardings are given: as shardings, meshes, specifications, restore arguments or sharding metadata. Arrays made by callback have the shape asked for.", "quantifier": "all sets of devices, ids and texts of devices, meshes, shardings, trees and workers", "why_tests_cant": "Tests run with a handful of CPU devices in one process, where the two numberings of devices are the same and moving is the identity; the failures need two hosts with different numberings.", "anchors": ["checkpoint/orbax/checkpoint/_src/multihost/colocated_transport.py:_get_cpu_device_map", "checkpoint/orbax/checkpoint/_src/multihost/colocated_transport.py:resolve_colocated_cpu_devices", "checkpoint/orbax/checkpoint/_src/multihost/colocated_transport.py:transform_tree_shardings", "checkpoint/orbax/checkpoint/_src/multihost/colocated_transport.py:to_final_specs", "checkpoint/orbax/checkpoint/_src/multihost/colocated_transport.py:zeros_like_spec", "checkpoint/orbax/checkpoint/_src/multihost/colocated_transport.py:make_scalar_array_like"]}
{"id": "C112", "title": "A function dispatched to the hosts runs once, on the given arrays, and its result arrives as specified", "statement": "Dispatching a function to the hosts of accelerators calls it at most once, with copies of the input arrays on the CPUs of their hosts (if inputs are given) and with its arguments. If it raises, the dispatch raises the same. If result specifications are given, its results arrive with exactly the values returned and the shapes, dtypes and shardings specified; otherwise an array True replicated over the devices of the inputs arrives. Without inputs it runs on the devices of the mesh of the specifications, in order, and two different meshes are refused. A function that returns what was specified never makes the dispatch fail.", "quantifier": "all functions, trees of inputs, specifications and arguments, meshes, and numberings of devices and CPUs", "why_tests_cant": "The tests replace colocated execution and device_put by identities on one process, so neither device orders nor empty or partial specifications are seen.", "anchors": ["checkpoint/orbax/checkpoint/_src/multihost/dispatchers.py:ColocatedPythonDispatcher.dispatch", "checkpoint/orbax/checkpoint/_src/multihost/dispatchers.py:_get_dummy_input_array_from_result_specs", "checkpoint/orbax/checkpoint/_src/multihost/dispatchers.py:_make_dummy_result_array"]}
{"id": "C113", "title": "Processes saving together agree about the destination, and an overwriting save replaces the old checkpoint", "statement": "When several processes save a V1 checkpoint together: if a checkpoint is at the destination and overwrite is not set, every process raises and the checkpoint is left as it is; if nothing is there, no process refuses or removes anything and the save finishes in every process; nothing of the new checkpoint is created before every process has looked at the destination; and with overwrite set the old checkpoint is removed and the save finishes in every process. If the processes were given different directories, every one of them raises.", "quantifier": "every number of processes, every primary among them, every interleaving of their moves, every process stopping at any point", "why_tests_cant": "The outcome depends on which process looks at the destination before the primary removes it; tests run one interleaving, usually with one process.", "anchors": ["checkpoint/orbax/checkpoint/experimental/v1/_src/saving/path_utils.py: maybe_overwrite_existing, remove_existing_path", "checkpoint/orbax/checkpoint/experimental/v1/_src/saving/execution.py: _run_blocking_save, _check_directory_consistency", "checkpoint/orbax/checkpoint/experimental/v1/_src/synchronization/multihost.py: sync_global_processes"]}
{"id": "C114", "title": "A checkpoint saved by several processes appears complete or not at all", "statement": "When several processes save a V1 checkpoint together, the new checkpoint appears at the destination only when the data of every process is in it and merged; a process that stops before its data is written keeps it from ever appearing; it does not change afterwards; and when the save has returned in any process the checkpoint is there and every other process has done its work.", "quantifier": "every number of processes, every primary among them, every interleaving, every process stopping at any point, every handler", "why_tests_cant": "A missing wait shows only when one process is slower than the others at one moment; tests have no control over that and crash at few points.", "anchors": ["checkpoint/orbax/checkpoint/experimental/v1/_src/saving/execution.py: _SaveResponse._finalize_save", "checkpoint/orbax/checkpoint/experimental/v1/_src/handlers/pytree_handler.py: PyTreeHandler._background_save, _finalize", "checkpoint/orbax/checkpoint/experimental/v1/_src/path/async_utils.py: _create_paths", "checkpoint/orbax/checkpoint/experimental/v1/_src/handlers/stateful_checkpointable_handler.py: StatefulCheckpointableHandler.save"]}
{"id": "C115", "title": "The waits of an operation meet only the same operation, in the processes that take part", "statement": "In every history of V1 saves, loads and finalizations no two waits of a process use the same barrier; the same operation waits at the same barriers in every process whatever the timing; groups of processes that were given different barrier prefixes never wait at each other's barriers; and an operation of a group of processes waits only for processes of the group.", "quantifier": "every history of operations, every option of each of them, all names of checkpointables and prefixes, every timing", "why_tests_cant": "Barriers that clash show only for particular orders of operations and particular timing of several processes; tests run a few operations in one group.", "anchors": ["checkpoint/orbax/checkpoint/experimental/v1/_src/synchronization/multihost.py: sync_global_processes, unique_barrier_key, should_skip_process_sync", "checkpoint/orbax/checkpoint/experimental/v1/_src/synchronization/synchronization.py: synchronize_next_operation_id", "checkpoint/orbax/checkpoint/experimental/v1/_src/handlers/pytree_handler.py: PyTreeHandler._background_save", "checkpoint/orbax/checkpoint/experimental/v1/_src/loading/loading.py: _LoadPyTreeResponse._finalize_load", "checkpoint/orbax/checkpoint/experimental/v1/_src/partial/saving.py: finalize", "checkpoint/orbax/checkpoint/experimental/v1/_src/saving/execution.py: _check_directory_consistency"]}
{"id": "C116", "title": "Processes that finalize a partial save together publish it completely and end alike", "statement": "When `finalize` of a partial save is called in the processes of a job, then whatever the interleaving and whoever stops: a checkpoint that is already at the path is not touched, what appears at the path is only the completely merged one, the data of the partial saves is otherwise kept; no process returns when another raises; when one has returned the checkpoint is published, and when one has raised nothing was published; and unless a process stops, the call ends in every process that takes part, in the way the path, the partial saves and the merge call for.", "quantifier": "all numbers of processes, every choice of the ones that take part and of the primary, every interleaving and every point at which processes stop, every outcome of merging and renaming", "why_tests_cant": "Tests run two processes in one or two interleavings and inject one kind of error.", "anchors": ["checkpoint/orbax/checkpoint/experimental/v1/_src/partial/saving.py: finalize", "checkpoint/orbax/checkpoint/experimental/v1/_src/synchronization/multihost.py: sync_global_processes, broadcast_one_to_all"]}
{"id": "C117", "title": "What an array is restored as, given a target and restore arguments", "statement": "Restoring a leaf as a `jax.Array` with `ArrayRestoreArgs`: contradicting shapes in the arguments are refused; with `strict` a shape in the arguments, or else in the target, is binding (the array comes back exactly if it was stored with that shape); without `strict` the array is cut or filled with zeros to that shape; an element type in the arguments, or else in the target, is the one of the result.", "quantifier": "all stored arrays, targets, arguments, element types and conversions", "why_tests_cant": "Tests try a few shapes; the interplay of target, arguments, strictness and number of axes has too many combinations.", "anchors": ["checkpoint/orbax/checkpoint/_src/handlers/base_pytree_checkpoint_handler.py: _update_array_restore_args, _fill_missing_save_or_restore_args", "checkpoint/orbax/checkpoint/_src/serialization/jax_array_restore_args.py: ArrayRestoreArgs", "checkpoint/orbax/checkpoint/_src/serialization/jax_array_handlers.py: ArrayHandler.deserialize", "checkpoint/orbax/checkpoint/_src/serialization/serialization.py: async_deserialize", "checkpoint/orbax/checkpoint/checkpoint_utils.py: construct_restore_args"]}
{"id": "C118", "title": "Every leaf is given to its own type handler once and comes back at its own key", "statement": "Saving or restoring a tree gives every leaf to the handler registered for its type (for the type asked for, when restoring), exactly once, with its own value, info and argument, in one call per handler; leaves that are skipped or empty go to none; a leaf without handler makes the operation fail before any handler is called; what a handler restores for a leaf is found under the key of that leaf and nowhere else; a partial save gives each handler exactly the leaves that are new.", "quantifier": "all trees, registries (including several types sharing a handler), arguments, and handlers that treat each leaf on its own", "why_tests_cant": "The grouping depends on the order in which types occur in the tree; tests see a few trees with one or two handlers.", "anchors": ["checkpoint/orbax/checkpoint/_src/handlers/base_pytree_checkpoint_handler.py: batched_serialization_requests, _filter_batch_requests, _maybe_deserialize", "checkpoint/orbax/checkpoint/_src/serialization/async_io_engine.py: BatchRequest, AsyncIoEngine"]}
{"id": "C119", "title": "The metadata of a checkpoint describes what loading it gives", "statement": "`checkpointables_metadata` has exactly one entry for everything `load_checkpointables` would load, namely what the handler that saved it says about it; `metadata` describes the tree that `load` loads for the same name; loading with the metadata as the template gives back what was saved; metadata is refused where loading is refused and given where loading is possible.", "quantifier": "all checkpoints, handlers, registries and names", "why_tests_cant": "Tests use the standard handlers and well-formed directories.", "anchors": ["checkpoint/orbax/checkpoint/experimental/v1/_src/metadata/loading.py: metadata, checkpointables_metadata", "checkpoint/orbax/checkpoint/experimental/v1/_src/layout/orbax_layout.py: checkpointables_metadata, metadata, _get_checkpointables_metadata", "checkpoint/orbax/checkpoint/experimental/v1/_src/layout/orbax_v0_layout.py: _is_direct_checkpoint, checkpointables_metadata, metadata"]}
{"id": "C120", "title": "Saving arrays takes them once, in order of priority, and writes what they contained", "statement": "A save of arrays that ends without error has written each array exactly once under its own name with its own arguments; arrays to be transferred synchronously are written as they were when the save was called, whatever the caller does afterwards, and the others too if the caller leaves them alone until on_transfer_end; transfers follow the priorities and stay within the memory limit; on_transfer_end is called after the transfer and on_write_end after the write, once each; a batch that fails under a transaction leaves nothing.", "quantifier": "all lists of arrays, priorities, limits and configurations, all interleavings of the background work with the caller's changes, all points and extents of failure", "why_tests_cant": "Interleavings, donations and failures are unbounded; tests use small trees and the default priority.", "anchors": ["checkpoint/orbax/checkpoint/_src/serialization/jax_array_handlers.py: ArrayHandler.serialize, _serialize_arrays, _serialize_arrays_batches_without_dispatcher, _get_deprioritized_batches_to_serialize, _async_serialize_replica_slices", "checkpoint/orbax/checkpoint/_src/serialization/types.py: TransferPriority, SerializationStatusCallback"]}
{"id": "C121", "title": "Restoring by one replica that broadcasts gives every replica the stored arrays", "statement": "A restore in which only the processes of one replica read gives every device exactly the shard a full read would give, for every array of the tree and in its order; exactly the processes with devices in that replica read; shardings for which this cannot work are refused; types and random keys are those that were stored.", "quantifier": "all numbers of replicas, positions and processes, all assignments of devices to processes, all primary replicas, lists of arrays, memory limits and arguments", "why_tests_cant": "Needs several processes and replicas; tests run on one process, where every device belongs to the same owner.", "anchors": ["checkpoint/orbax/checkpoint/_src/serialization/jax_array_handlers.py: SingleReplicaArrayHandler, _single_replica_deserialize_and_broadcast, _validate_sharding_and_get_primary_replica_processes", "checkpoint/orbax/checkpoint/_src/multihost/multislice.py: replica_count, local_replica_devices, get_primary_replica_ids_and_pids, _globalize_single_replica_arrays"]}
{"id": "C122", "title": "Arrays saved through the Pathways persistence service are restored by name", "statement": "An accepted save writes every array once under its own name with its own content, and its future ends without error only when all of them and the metadata are written; restoring any list of these arrays gives, in the order asked for and whatever their meshes, the saved types, shapes and contents with the requested shardings, random keys as the same keys; restoring many at once gives what restoring each alone gives.", "quantifier": "all lists of arrays, names, types, shapes, meshes and arguments, all services, all orders in which writes end or fail", "why_tests_cant": "Tests replace the service by a mock and use one or two arrays; groupings and orders of completion are unbounded.", "anchors": ["checkpoint/orbax/checkpoint/_src/serialization/cloud_pathways_array_handler.py: CloudPathwaysArrayHandler", "checkpoint/orbax/checkpoint/_src/serialization/cloud_pathways_helper.py: dtype_to_xla_primitive_type_str, get_read_request, write_one_array, read_arrays", "checkpoint/orbax/checkpoint/_src/serialization/pathways_handler_registry.py: get_pathways_array_handler", "checkpoint/orbax/checkpoint/_src/serialization/pathways_types.py: CheckpointingImpl.from_options"]}
{"id": "C123", "title": "Deleting a step with several threads removes the directory completely and nothing else", "statement": "With several deletion threads, deleting a checkpoint directory returns only when nothing is left at or below it and everything else is as it was; it raises exactly when something is in the way; links in the directory are not followed; files are removed by the threads before the directories are; when it has ended no thread is still at work; it can always end; it leaves what deleting with one thread leaves.", "quantifier": "all directory trees with files, directories and links, all entries that cannot be removed or read, all numbers of threads, all interleavings of the scanning thread, the scheduler and the pool", "why_tests_cant": "Tests delete one small tree with whatever interleaving happens; the race between the last scanned directory and the end of the scheduler, and errors in the scanning thread, are not provoked.", "anchors": ["checkpoint/orbax/checkpoint/_src/path/deleter.py: _ParallelDirectoryDeleter", "checkpoint/orbax/checkpoint/_src/path/deleter.py: _is_local_path, StandardCheckpointDeleter.__init__, StandardCheckpointDeleter._delete_step_permanently"]}
{"id": "C124", "title": "Whether a save is in progress is one value for all processes", "statement": "The value behind is_saving_in_progress is the same register for all processes: once a read in some process returns the value of a set, no later read in any process returns an earlier value; once a set has returned in one process every process reads its value or a later one; a value is not seen before every process has called its set; all calls can return if all processes make the same calls.", "quantifier": "all numbers of processes, all sequences of values, all interleavings of the steps of the processes and of reads, all barriers that time out", "why_tests_cant": "Tests use one process with a mocked barrier; interleavings of several processes and timeouts are not run.", "anchors": ["checkpoint/orbax/checkpoint/_src/futures/synchronization.py: MultihostSynchronizedValue", "checkpoint/orbax/checkpoint/checkpoint_manager.py: CheckpointManager.is_saving_in_progress"]}
{"id": "C125", "title": "An Orbax Model export has every function with its own arguments, or is refused", "statement": "Constructing JaxModule for an Orbax Model succeeds exactly if the arguments are in order (shapes, values of symbols, constraints and options have exactly the names of the functions, per-function options agree on everything common, platforms are known); the module then has exactly the given functions under their names, each with its own shapes, values of symbols and constraints; common options are those of every function; the parameters are unchanged except float32 to bfloat16 when asked; keyword arguments and an options object mean the same; giving both is refused.", "quantifier": "all functions and names, all shapes and symbol values, all option objects and mappings of them, all keyword arguments, all parameters", "why_tests_cant": "The combinations of one or several functions with the forms of five other arguments are unbounded; tests try a few.", "anchors": ["export/orbax/export/jax_module.py: JaxModule", "export/orbax/export/modules/obm_module.py: ObmModule, _get_shared_value", "export/orbax/export/utils.py: get_lowering_platforms, to_bfloat16", "export/orbax/export/obm_configs.py: Jax2ObmOptions"]}
{"id": "C126", "title": "Nothing changes at the tiering service without permission", "statement": "A call to Reserve, Finalize, Prefetch or Delete changes the database only if the storage system grants the caller's token the permission on the paths concerned (write where the asset is or will be written, on every tier path for a delete, read on source and target for a prefetch); the token is what follows Bearer in the last authorization header; without a token none of them does anything; a denied or failed call changes nothing; callers with permission are not denied.", "quantifier": "all databases, all requests and headers, all implementations of the permission checks and of the database operations", "why_tests_cant": "Tests call handlers with a few headers and a mocked check; that no path through any handler reaches the database unchecked is about all requests and states.", "anchors": ["checkpoint/orbax/checkpoint/experimental/tiering_service/auth.py: get_oauth_token, has_read_permission, has_write_permission, verify_gcs_permissions, verify_lustre_permissions", "checkpoint/orbax/checkpoint/experimental/tiering_service/storage_backend.py: verify_prefetch_permissions", "checkpoint/orbax/checkpoint/experimental/tiering_service/server.py: TieringServiceServicer"]}
{"id": "C127", "title": "A copy between tiers goes to the right places, is requested once, and ends as its operation ends", "statement": "A copy job is carried out by the client that fits the two backends, in the zone of the Lustre side, from the storage path of the source to that of the target (for Lustre: exactly the path below the mount point); over any history of workers and replies at most one copy is requested, every poll asks the same service for the very operation it named, the job completes only if (and when) the service says that the operation ended well and fails only if it says that it did not; replies that do not arrive change nothing; the reported progress is what the status shows.", "quantifier": "all backends and paths, all sequences of acquisitions and replies of the services", "why_tests_cant": "Tests run one trigger and one poll against a mocked service; that the operation is never lost or exchanged is about every sequence of replies and of workers taking over.", "anchors": ["checkpoint/orbax/checkpoint/experimental/tiering_service/gcp_storage_client.py: determine_client, GcsToGcsTransferClient, GcsToLustreClient, LustreToGcsClient, serialize_transfer_status, deserialize_transfer_status, get_client_from_status", "checkpoint/orbax/checkpoint/experimental/tiering_service/job_worker.py: _process_copy_job, _save_triggered_transfer_status, _poll_copy_job_status, _update_job_status_after_poll, _handle_polling_error"]}
{"id": "C128", "title": "is_orbax_checkpoint recognizes what Orbax writes, and nothing else by accident", "statement": "Asking whether a path is a checkpoint raises for a missing path or a file; answers yes for every step of a manager and every directory of a plain checkpointer, for the directory of a tree exactly if its arrays can be seen (in one database or in the older array format), for steps without readable metadata as soon as one item is such a tree; and no for the root of a manager with any steps and files.", "quantifier": "all directory trees; all trees saved with all options, all items and steps", "why_tests_cant": "Tests ask about a handful of saved directories; the answer for every directory content, and for everything that can be saved, is not enumerable.", "anchors": ["checkpoint/orbax/checkpoint/_src/path/format_utils.py: is_orbax_checkpoint, is_pytree_checkpoint, is_ocdbt_checkpoint", "checkpoint/orbax/checkpoint/_src/metadata/checkpoint.py: _MetadataStoreImpl.read", "checkpoint/orbax/checkpoint/_src/handlers/base_pytree_checkpoint_handler.py: _write_metadata_after_commits", "checkpoint/orbax/checkpoint/_src/serialization/tensorstore_utils.py: array metadata file"]}
{"id": "C129", "title": "A tiering server runs with the configuration its file gives, or does not start", "statement": "A configuration is accepted exactly if it is a mapping whose known keys can be read: the interval in seconds (or as number or duration under the other key), every backend of the list in order with its level, a known type, a prefix and its place, the number of jobs, and the texts; the result contains exactly what was read and the documented default for what was not given. A backend without level, type or prefix, or with an unknown type, is refused with the whole configuration. No other key matters.", "quantifier": "all values a YAML file can contain, for all readings of numbers and durations by the libraries", "why_tests_cant": "Tests parse some small dictionaries; which of all nested values of every type are accepted, and as what, cannot be enumerated.", "anchors": ["checkpoint/orbax/checkpoint/experimental/tiering_service/server_config.py: parse_config, _parse_client_keep_alive, _parse_storage_backend, _parse_storage_backends", "checkpoint/orbax/checkpoint/experimental/tiering_service/proto/tiering_service.proto: ServerConfig, StorageBackend"]}
{"id": "C130", "title": "A JAX data processor is prepared once, with its own inputs, and unknown sizes stay independent", "statement": "Preparing a processor succeeds exactly if it was not prepared before, has a name, its input keys are available and have shapes, and the conversion succeeds. It is then traced with exactly the inputs it names (all of them if it names none), with its parameters if it has some; known sizes and the user's names for sizes are kept; unknown sizes at different places other than the first are given different symbols. After success every further call raises and changes nothing; after a failure it can be tried again as if it had not been called. Parameters of processors with different names are saved in different directories, at the path that is recorded, inside the model.", "quantifier": "all processors, all trees of inputs with shapes of any rank, all conversions that succeed or raise, all names and paths", "why_tests_cant": "Tests prepare a few signatures; that no two symbols coincide in any number of inputs of any rank, and which signatures are accepted, is a statement about all of them.", "anchors": ["export/orbax/export/data_processors/jax_data_processor.py: JaxDataProcessor.prepare, _JaxShapeSpecGenerator, _jax_spec_from", "export/orbax/export/data_processors/data_processor_base.py: DataProcessor"]}
{"id": "C131", "title": "A DTensor made from a JAX array holds the array's values where its layout says", "statement": "Whenever a sharded array is converted, every device's piece is the part of the array that the layout of the DTensor gives this device, in every dimension. The layout has all dimensions, sharded only over axes named for that dimension. A spec valid in JAX is accepted unless a dimension is sharded over several axes of size other than one; with permission and the mesh given such a dimension is resharded over the first of its largest axes; otherwise the array is taken as it is. The specs of a tree are those of its arrays, refused exactly if meshes differ or a sharding is of another kind. The mesh in use is that of the innermost context, and again the one before after the context, also after errors.", "quantifier": "all meshes, array shapes, partition specs and device coordinates; all trees; all nestings of contexts with errors and shutdowns", "why_tests_cant": "Tests use meshes of two axes on eight devices; that no spec gives wrong values without an error is a statement about all meshes and specs.", "anchors": ["export/orbax/export/dtensor_utils.py: jax_array_to_dtensor, get_pspec_from_jax_arrays, maybe_enable_dtensor_export_on, get_current_mesh"]}
{"id": "C132", "title": "An asynchronous save stores the values of the time of the call", "statement": "What a save that runs in the background stores of every item is its value when save was called, whatever the program does to its objects after the call returned and however its actions interleave with the background: arrays (prioritized or not), numpy arrays, scalars, texts, documents, protocol buffers, metrics and custom metadata. If an array is deleted before it is transferred the save fails; nothing wrong is stored. Best checkpoints are ranked by the metrics given at the call.", "quantifier": "all objects, all kinds of items, all interleavings of changes by the program with steps of the background", "why_tests_cant": "The race between the program and the background depends on the schedule; tests usually wait before they change anything.", "anchors": ["checkpoint/orbax/checkpoint/_src/serialization/type_handlers.py: NumpyHandler.serialize, ScalarHandler.serialize, StringHandler.serialize", "checkpoint/orbax/checkpoint/_src/serialization/jax_array_handlers.py", "checkpoint/orbax/checkpoint/_src/handlers/json_checkpoint_handler.py: async_save", "checkpoint/orbax/checkpoint/_src/handlers/proto_checkpoint_handler.py: async_save", "checkpoint/orbax/checkpoint/experimental/v1/_src/handlers/json_handler.py", "checkpoint/orbax/checkpoint/experimental/v1/_src/handlers/proto_handler.py", "checkpoint/orbax/checkpoint/_src/checkpointers/async_checkpointer.py: _make_on_commit_callback", "checkpoint/orbax/checkpoint/checkpoint_manager.py: _add_checkpoint_info"]}
{"id": "C133", "title": "A checkpoint manager is for one unnamed item or for named items, and what it saves comes back in that form", "statement": "A CheckpointManager is used either for one unnamed item or for named items. The constructor fixes the way of use or leaves it to the first call; it never changes afterwards, arguments of the other form are refused, and all checkpoints a manager writes are of one kind. An unnamed item comes back as itself and named items come back under their names with the arguments given for each, also with other managers and other directories and after any history. The deprecated form of calls is equivalent to the current one. Refused calls have no effect, and no item is replaced or left out silently.", "quantifier": "all constructor arguments, all histories of calls by any number of managers on any directories, all items and arguments", "why_tests_cant": "The way of use is hidden state that depends on the whole history of calls, including failed ones, and on what other managers wrote.", "anchors": ["checkpoint/orbax/checkpoint/checkpoint_manager.py: CheckpointManager.__init__, save, restore, item_metadata, _validate_args, _maybe_get_default_item", "checkpoint/orbax/checkpoint/_src/threading.py: OptionalRef", "checkpoint/orbax/checkpoint/_src/handlers/composite_checkpoint_handler.py: restore, _get_or_set_handler"]}
{"id": "C134", "title": "Options of the export package are overridden per thread, and leaving a block undoes it", "statement": "An option of the export package has a global value and can be overridden by context managers. In every history of definitions, updates and properly nested blocks of any number of threads, a thread that reads the option gets the value of the innermost block it is inside of, whatever other threads do and also after updates, and outside of blocks the value of the last update or of the definition. Leaving a block gives back what was in force before it, never raises, and hooks were last called with the value in force. An option is defined once; only defined options are updated or read. The environment decides the initial value.", "quantifier": "all histories of definitions, updates, entered and left blocks of any number of threads, options and Config objects; all values and environment texts", "why_tests_cant": "The value in force depends on the whole interleaving of the threads' blocks and updates.", "anchors": ["export/orbax/export/config.py: bool_env, Config, _StateContextManager, obx_export_tf_preprocess_only"]}
{"id": "C135", "title": "Programs with different atomicity options can share a directory", "statement": "The way a checkpoint is made atomic is decided by an explicit class, else by the mode of AtomicityOptions, else by the storage. Programs with any options may write, list, clean up and delete in one directory: a save that returned is complete for every program, whatever its options, and stays so through any further saves, interruptions and clean-ups of programs with any options, until it is deleted. What a program takes for a finished step was completely written. A clean-up keeps what its options call finished and leaves nothing else, after which an interrupted step can be saved again. The interfaces of V0 and V1 accept the same checkpoints. allow_legacy_atomic_rename keeps and reads checkpoints without a commit file.", "quantifier": "all histories of saves, crashes at every operation, clean-ups and deletions of programs with any class, mode and flag, on both kinds of storage; all checkpoints and names", "why_tests_cant": "Depends on the history of interruptions and on all combinations of options of the programs that share the directory.", "anchors": ["checkpoint/orbax/checkpoint/_src/path/atomicity_defaults.py: get_default_temporary_path_class, _resolve_temporary_path_class_from_options", "checkpoint/orbax/checkpoint/options.py: AtomicityMode, AtomicityOptions", "checkpoint/orbax/checkpoint/_src/path/temporary_paths.py: is_path_finalized, is_path_temporary, cleanup_temporary_paths", "checkpoint/orbax/checkpoint/_src/path/step.py: find_step_path", "checkpoint/orbax/checkpoint/experimental/v1/_src/layout/orbax_layout.py: OrbaxLayout"]}
{"id": "C136", "title": "A checkpoint names its handlers, and a program that registered them restores everything without being told how", "statement": "The handler of every item is recorded by a name in the checkpoint. A program that registered handlers of these names, each with its own arguments, restores all items of the checkpoint without arguments and without handlers, each with a handler of the recorded name, whatever program saved it. A name stands for the last class registered under it with the fully qualified name of the first; a class with another fully qualified name is refused and changes nothing. An item whose handler is unknown leads to an error, not to another handler.", "quantifier": "all histories of registrations of the saving and of the restoring program, all histories of the saving composite handler, all items", "why_tests_cant": "Depends on the order and combination of all registrations of two programs.", "anchors": ["checkpoint/orbax/checkpoint/_src/handlers/handler_type_registry.py: HandlerTypeRegistry", "checkpoint/orbax/checkpoint/checkpoint_args.py: register_with_handler, get_registered_handler_cls, get_registered_args_cls", "checkpoint/orbax/checkpoint/_src/handlers/composite_checkpoint_handler.py: CompositeCheckpointHandler.restore, _get_item_handlers"]}
{"id": "C137", "title": "A Composite has exactly the items it was made with", "statement": "A Composite refuses items exactly if a name begins with two underscores; otherwise it has exactly the items it was given, in that order, by [], get, in, keys and len. Every item can be read as an attribute, unless its name is one of the class, whose member is then not shadowed. a | b has the items of both with the values of b where both have one; a & b has the items of a whose names b has. A dictionary can stand for b.", "quantifier": "all items, names and values, all orders in which a set is iterated", "why_tests_cant": "All combinations of names, including those of the class itself.", "anchors": ["checkpoint/orbax/checkpoint/_src/composite.py: Composite"]}
{"id": "C138", "title": "The report on a local checkpoint lists exactly the chunks there are and the local shards there are not", "statement": "For an array whose shards are stored as one chunk each, the debugging report on a local checkpoint lists exactly the chunks in storage, and as missing exactly the shards of the devices of this process that have no chunk there; nothing is missing exactly if every element of the local shards is in storage. The number of a chunk and the index of a shard determine each other: different shards have different numbers, and an index made from a number selects the same elements. An index that is not one cell of the grid of shards is refused.", "quantifier": "all shapes, numbers of dimensions, shardings, indices, sets of stored chunks in any order, both versions of Zarr", "why_tests_cant": "All grids, indices and sets of missing chunks.", "anchors": ["checkpoint/orbax/checkpoint/experimental/emergency/local_checkpoint_data_debugging.py: index_to_chunk_id, chunk_id_to_index, get_chunk_ids_from_tensorstore, get_present_and_missing_chunks"]}
{"id": "C139", "title": "The peer-to-peer manager saves by its two schedules, keeps the newest steps and deletes from both storages", "statement": "An unforced save of a step later than all stored ones stores it locally exactly when it is k * interval + offset of the local options, and persistently exactly when it is of the persistent ones; it answers True exactly if either was due, as should_save says. A refused save changes nothing; a forced one that returns has the step in both storages. Neither storage ever holds more than max_to_keep steps (one locally by default), the oldest go first and never the new one; without a limit a persistent step stays until it is deleted by name. all_steps lists the steps of own, peer and persistent storage in increasing order, once each. A deletion that returns has removed the step from both storages and nothing else.", "quantifier": "all intervals, offsets, limits, histories of saves (forced or not) and deletions, sets of peer steps, with and without persistent storage", "why_tests_cant": "All histories and pairs of schedules; storages that disagree about a step arise only by retention.", "anchors": ["checkpoint/orbax/checkpoint/experimental/emergency/p2p/checkpoint_manager.py: CheckpointManager.save, should_save, delete, all_steps", "checkpoint/orbax/checkpoint/experimental/emergency/p2p/policies.py: OffsetFixedIntervalPolicy", "checkpoint/orbax/checkpoint/experimental/emergency/p2p/options.py", "checkpoint/orbax/checkpoint/checkpoint_manager.py: CheckpointManager.save, should_save, delete", "checkpoint/orbax/checkpoint/_src/checkpoint_managers/preservation_policy.py: LatestN"]}
{"id": "C140", "title": "Nesting flat parameters puts each where its name says and takes from the caller only what it should", "statement": "unflatten of model surgery accepts flat parameters exactly if the parts of no name are the first parts of another; then every parameter is at the place the parts of its name say, and no other is in the tree. With a target the result is the target with each leaf replaced by the parameter of its joined name, or left as it is if there is none; other parameters are ignored. The caller's dictionary is unchanged unless the work is in place; in place it loses all parameters, or with a target exactly those the target names.", "quantifier": "all separators (of any length), sets and orders of names, parameters, targets of any depth with containers of any kind, with and without working in place", "why_tests_cant": "Whether names conflict depends on all pairs of names and their order; the separator may overlap with parts.", "anchors": ["checkpoint/orbax/checkpoint/experimental/model_surgery/transformations/nesting.py: unflatten", "checkpoint/orbax/checkpoint/_src/tree/utils.py: from_flat_dict, to_flat_dict"]}
{"id": "C141", "title": "Metadata of values are equal exactly when they describe the values alike", "statement": "Metadata of arrays, scalars and strings are equal exactly if they are of one kind and agree, for arrays in shape, sharding, element type and stored form, and for scalars in element type; names and directories do not matter. An array and a scalar are never equal, whichever is on the left. Among these equality is reflexive, symmetric and transitive. Metadata wrapped for the newer interface are equal exactly if name, directory and content are.", "quantifier": "all pairs and triples of metadata objects of all classes, all shapes, shardings, types, stored forms, names and directories, both sides of the comparison", "why_tests_cant": "Equality is used to compare whole trees; symmetry and transitivity range over all pairs and triples, and Python tries the methods of two classes in an order that depends on both.", "anchors": ["checkpoint/orbax/checkpoint/_src/metadata/value.py: Metadata, ArrayMetadata, ScalarMetadata, StringMetadata (__eq__)", "checkpoint/orbax/checkpoint/experimental/v1/_src/serialization/compatibility.py: V0Metadata"]}
{"id": "C142", "title": "The structure inferred from a directory has one placeholder for every parameter file", "statement": "For a checkpoint without a structure file, the structure is inferred from the names in its directory. This succeeds exactly if no two names, the reserved ones left aside, are equal or one the other with a dot and more behind it. The leaves are then exactly the placeholders of the files that are not reserved, each at the parts of its name between dots, and from each leaf the name of its file is found again. The order of the listing does not matter.", "quantifier": "all directories with any number of names, all names with any number of dots, all orders of listing, all leaf values", "why_tests_cant": "Whether names stand in each other's way depends on all pairs of names and on the order in which the file system lists them.", "anchors": ["checkpoint/orbax/checkpoint/utils.py: pytree_structure, leaf_is_placeholder, leaf_placeholder, name_from_leaf_placeholder", "checkpoint/orbax/checkpoint/_src/handlers/pytree_checkpoint_handler.py: PyTreeCheckpointHandler._read_aggregate_file"]}
{"id": "C143", "title": "A peer serves only files below its checkpoint directory", "statement": "Whatever path a peer asks for, what the server sends does not depend on files outside the directory it serves: it is a file below that directory or the answer for a missing file. An ordinary path of a file that is not empty is answered with this file, and the peer then has the same contents. A download that reports success has written a file of the served directory, wherever the connection broke. Requests without a path, with an absolute path or for a path that leads outside are answered as for a missing file.", "quantifier": "all file systems, served and working directories, requested paths with any components, contents, ways in which TCP splits the bytes, and points at which the connection breaks", "why_tests_cant": "The requests are untrusted: the claim ranges over all paths and all contents of files outside the directory.", "anchors": ["checkpoint/orbax/checkpoint/experimental/emergency/p2p/service.py: P2PNode.handle_download, _safe_path_join", "checkpoint/orbax/checkpoint/experimental/emergency/p2p/protocol.py: TCPMessage.send_file, TCPClient.download"]}
