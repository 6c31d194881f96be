# Formal model of google/orbax in Lean 4 — design

## Trusted base

* Lean 4.33.0's kernel (every theorem is a kernel-checked term; no `native_decide`, no `bv_decide`,
  no `sorry`, no axioms of our own).
* Axioms a theorem may depend on: at most `propext`, `Classical.choice`, `Quot.sound`
  (check with `#print axioms`; the gate audits them).
* The faithfulness of the model to `/repo`.  The code is not executed here: every definition of
  the model carries a comment with the file and lines it was read from, and says where it simplifies.
* Assumed about the environment (never as an axiom, always as the shape of the model):
  Python `int` is an unbounded integer; `dict` preserves insertion order; a POSIX-like file system
  in which `rename`, `mkdir` and creation of one small file are atomic; one checkpoint directory is
  written by a single manager; locks give mutual exclusion; thread schedulers may pick any
  interleaving of the atomic steps of the model.
* Modelled: exactly the functions whose file and lines are cited in the model files; the last section
  of this document lists them file by file.  Everything else in `/repo` is not modelled.
* Not modelled, in particular: JAX/TensorStore data movement, floating point rounding (real-valued quantities are
  modelled by integers or rationals and said so), logging, metrics, wall-clock performance, GCS/HNS/
  colossus specific branches, multi-host barriers unless a section says otherwise.

## Conventions

* `Verif/<Area>/Model.lean` (or `Verif/<Area>.lean`) holds the executable model with citations;
  `Verif/<Area>/Lemmas.lean` helper lemmas; `Verif/<Area>/Props.lean` the property theorems
  (named `C<id>_...`), each preceded by its English statement and followed by an `example` showing a
  concrete non-trivial case that meets the hypotheses.
* Exceptions are values (`Except Err α`, or `Option` when only one error is possible).
* A theorem named `..._partial` proves less than the English property; what is missing is said at the
  theorem and in `MANIFEST.json`.
* A theorem named `..._fails` exhibits, with a concrete witness, an input for which the property is
  false of the model (and, by reading, of the code): these are *findings*, listed below.

## Plan per property

| id | what is modelled | how it is proved |
|----|------------------|------------------|
| C01–C07 | each preservation policy as a function from the list of checkpoint infos to flags | list induction; spec given as a per-position predicate |
| C08 | each save-decision policy; histories as lists of attempts | case analysis; induction over the history for spacing |
| C09–C11, C15 | `CheckpointManager` as a state machine (cached infos, disk, policy parameters) with operations save/delete/reload/external | invariant induction over operation lists |
| C12–C13 | asynchronous finalize as a separate step with failure outcome; finalize-thread join bookkeeping per thread id | invariant induction |
| C14 | best-step sort | stable-sort lemma |
| C16 | decimal printing with padding, and the recogniser given by the regular expression | induction on digits |
| C17–C22, C24 | file system as finite map from names to directories; save as a list of atomic actions; crash = prefix of that list | prefix induction; invariants on the file system |
| C23 | queue + worker as a labelled transition system | invariant over all interleavings |
| C25–C29 | async manager, futures, signal store as transition systems | invariants over all schedules |
| C30 | limiter as transition system over reservations | sum invariant |
| C31–C32 | batch generator and regulator as pure functions / folds over integers (floats abstracted to rationals) | induction over inputs |
| C33–C39 | integer-vector functions, mirrored branch by branch | induction on rank, arithmetic |
| C40–C47, C51–C53 | trees as inductive types; functions by structural recursion | structural induction |
| C48 | directory evolution as an arbitrary stream of listings | induction on polls |
| C49 | FIFO worker as a transition system over a file cell | invariant |
| C50, C54 | JSON as an inductive type; serializer/deserializer pairs | case analysis, induction |
| C55 | the type handler registry as two lists of entries; `add`/`get` mirrored with an arbitrary subclass relation | case analysis; properties of any later history of additions |
| C56 | handler registries, the composite handler's item-to-handler table and its save/restore/finalize as functions on that table | induction over histories of saves and restores |
| C57 | the flatten/unflatten pair of tree metadata with the shared auxiliary dictionary as state | structural induction; state after each call |
| C58 | `intersect_trees`, `merge_trees` by path | structural induction |
| C59 | directory trees, the copy as a list of actions, snapshot/release/replace as functions with a crash point | mutual induction over trees; prefix of the action list |
| C60 | JSON as an inductive type, the object hook bottom-up; files per process; the validator on lists of records | mutual induction over JSON; induction over histories of writes |
| C61 | partial save session as a state of directories; save and finalize as lists of storage actions | invariants over action lists; histories with crashes |
| C62 | the tables of the service as lists of rows; every call as a read step and a write step, every commit checked against the unique indexes; histories as lists of steps | invariant over histories (the unique indexes hold), induction over histories for stability |
| C63 | jobs with leases; claim as select (skipping locked rows) and commit | classification of every change of a job row by one step; induction over histories |
| C64 | as C63, with the clock | inductive invariant counting running jobs, for histories in which claims do not interleave and no worker reports late; witnesses without these hypotheses |
| C65 | as C62 | classification of every change of a tier path row; inductive invariant |
| C66 | as C62, deletion as begin, removal and end | inductive invariants; the failed deletion by an invariant over all later histories |
| C67 | as C62 | case analysis on reachable tables |
| C68 | backends as records of strings (lists of characters); paths as strings; the bucket as a list of object names, its listing as arbitrary pages | first-match lemmas; string lemmas on the last component; deletion by induction over pages and batches |
| C69 | the table as a list of rows | counting argument: a duplicate-free list of the same keys is a permutation |
| C70 | the client object's fields, futures, background tasks and pending calls; histories as lists of call starts, server answers and keep-alive answers | inductive invariant for histories without overlapping reserve/prefetch; witnesses for overlapping ones |
| C71 | byte streams as lists, delivered in arbitrary pieces; JSON abstract (a codec with a decode-after-encode law); directories as lists of files | induction over pieces; digits lemma for the length; path resolution by induction over components |
| C72 | mesh as a list of replicas, each a list of device processes; hosts' announcements; registry as nested maps | invariants of the two building loops; witnesses for the failures |
| C73 | the exchange on bytes, counting of values per replica, the two cached latest steps | counting lemmas on duplicate-free lists; case analysis of restore |
| C74 | index lists; both maps built by writes into a list of `none` | permutation lemmas (pigeonhole); composition of the two maps |
| C75 | the batching loops and the masked sum over replicas | strong induction on the remaining leaves; neutral element lemma |
| C76 | hosts with disk, prefetch state and restore directory; restore on all hosts as one function; events for prefetch, saves/deletions, registry sync and restore | invariant on the restore directories over all histories, on top of C72; case analysis of the exchange |
| C77 | `Safetensors/Model.lean`: index domains to byte runs (full trailing dimensions, strides, product of leading indices, sort) | `RunsProps.lean`: elementwise equality with a row-major specification, by induction over the dimensions |
| C78 | `Safetensors/Model.lean`: sorting, coalescing, chunking, chunk copies (with numpy's length check and broadcast), completion in any order | `PlanProps.lean`: invariants of the greedy partition and of the moving first member; every position of every run is covered by a copy of the right bytes |
| C79 | `Safetensors/Model.lean`: header, length check, index, whole and sharded plans | `LoadProps.lean`: file format specification `fileOf`; case split of the truncation point |
| C80 | `Safetensors/Model.lean`: the over-read ratio as a fraction, automatic ratio | `RatioProps.lean`: invariant over the greedy partition; group starters as an independent specification; a family of plans against the claim of a bounded number of requests |
| C81 | Verif/V1/Registry.lean: v1 handler registries as entry lists with secondary type strings; add, local_registry, resolution for saving and loading branch by branch | induction over registrations (names distinct), exactness of copies by induction over entries, case analysis of resolution; findings as ∀-statements |
| C82 | Verif/V1/Layout.lean: a checkpoint directory as what the layouts ask of it; both Orbax layouts, automatic choice of the tree, save and load of named values over abstract handlers | induction over the saved names, permutation of directory listings, sortedness of the candidate list; uses C81 |
| C83 | `V1/Training.lean`: the training Checkpointer as a state machine over numbered checkpointer objects; `save` in two events, commit threads, the finalize thread in two steps, `result()`, loading | `V1/TrainingProps.lean`: invariant over all histories (induction), with the two conditions that make it true; findings as explicit schedules and as statements about every state |
| C84 | `Surgery/Transform.lean`: grouping, padding, stacking, fusing, repeating and renaming on flat dictionaries of arrays (shape and element function); regexes as functions on keys | `Surgery/StackProps.lean`, `Surgery/FuseProps.lean`: where every element goes, by induction over the dictionary and over the groups; what raises; findings as statements about every dictionary that meets the condition |
| C85 | `PyTree/Model.lean`: saving (type strings, writes, metadata file) and restoring (metadata tree, trimming, placeholders, restore arguments, reading, filling in) without rich types; type handlers abstract | `PyTree/RestoreProps.lean`, `PyTree/PartialProps.lean`, `PyTree/PlaceholderProps.lean`, `PyTree/SaveProps.lean`: the metadata of a saved tree has its structure and an entry for every leaf (from C41, C51), so that the result is the item mapped by what the checkpoint has under the same names; success by C43 (difference) and C44, C46 (trimming); findings for all trees that meet the condition |
| C86 | `Verif/PyTree/Transform.lean`: the decision which parameters to read, reading them, applying the transforms (pytree_checkpoint_handler.py) | The tree that is loaded is described value by value; `C86_restore` relates every leaf of the result to it. `C86_values`: for renaming transforms every leaf is a value, never a placeholder; `C86_reads_only_wanted`, `C86_succeeds`. Findings: a value needed by two leaves is read once, with one of the two arguments; an item key with a slash and an empty container in the item lead to metadata objects in the result; a transform without declared inputs makes everything fail |
| C87 | `Verif/Emergency/Replicator.lean`: the local and the persistent manager with contents, save, delete, restart, restore with process metadata and mesh (replicator_checkpoint_manager.py, mesh_consistency.py) | `C87_state` by an invariant over histories against the last storing call in the trace; `C87_succeeds` from C74; `C87_pairs`, `C87_pairs_succeed` by a second invariant (same steps in both stores) under stated conditions; `C87_latest`, `C87_resized`, `C87_unlisted`. Findings: a save after losing local steps can return True without saving the dataset, or leave an older dataset to be paired with the new state; time-based policies, a missing persistent directory, steps without dataset, a dataset requested as a PyTree, and arguments with mesh and axes |
| C88 | `Verif/Arrays/Zarr.lean`: TensorStore as a store of chunks with non-atomic read-modify-write steps; saving an array by all processes on top of the replica slices of C37 and the chunk shapes of C33, to one database or to one for each process with a merge; restoring under another sharding (serialization.py, tensorstore_utils.py, ocdbt_utils.py, jax_array_handlers.py) | `C88_direct`, `C88_ocdbt` for all schedules by the invariant that chunks hold elements of the array only, from alignment of fragments with the chunk grid; `C88_interrupted`, `C88_one_writer`, `C88_saves`, `C88_refused`, `C88_chunk_fits_file`, `C88_reserved`, `C88_sharding`. Findings: mesh and axes win over the sharding against the documentation; reserved bytes use the item size after the cast; empty regions reserve bytes. TensorStore's own implementation, codecs, random keys, layouts and memory kinds are not modelled |
| C89 | `Verif/Handlers/Standard.lean`: saving of each kind of leaf, validation of states, restore arguments from a target or from metadata, shardings from files or the fallback, reading by each type handler (standard_checkpoint_handler.py, checkpoint_utils.py, type_handlers.py); Python and NumPy are the parameters of `World` with the laws `Lawful` | `C89_same_target`, `C89_no_target` by induction over the tree; `C89_restored`, `C89_succeeds_iff` against the relation `Restored`, which says for each kind of target what may come back; `C89_saveable`, `C89_no_devices`, `C89_number_conversion`. Findings: shapes of NumPy targets are ignored in strict mode; structs without sharding give jax.Arrays; metadata is refused as target; NumPy scalars cannot be their own target; floats are truncated for int targets; empty arrays cannot be saved. Random keys, layouts, placeholders and empty nodes are not modelled |
| C90 | `Verif/V1/Context.lean`: heap of options objects, containers and contexts with `deepcopy`, `Context.__init__`, the guard of attributes, the traversal that freezes, context variables of threads and tasks with tokens (context.py, options.py), the context of a Checkpointer | `C90_scope`, `C90_thread`, `C90_task` by an invariant on the stack of tokens; `C90_frozen` by the closure of the collected objects and an invariant over the family of tasks; `C90_inherits`, `C90_child_independent`, `C90_parent_independent` by separation of the heap; `C90_new_is_mutable` by an invariant from the start of the program; `C90_checkpointer`, `C90_checkpointer_copy`. Findings: other threads can set options of an active context; containers can be changed in place; an active context overrides the one given to a Checkpointer. Freed objects and etils' ContextManager are not modelled |
| C91 | `Verif/Manager/Infos.lean`: the operations of `CheckpointInfos` as steps of threads on list objects, the reentrant lock with its timeout and the flag `_acquired` (checkpoint_info.py, threading.py) | Invariants over all schedules: `C91_exclusive`, `C91_linear`, `C91_order` (linearizability unless an append overlaps with a write), `C91_loop`, `C91_released` (without timeouts). Findings: `append` takes no lock and is lost by an overlapping `delete_if` or `set`; a timeout makes the owner of the lock keep it for ever |
| C92 | `Verif/Handlers/Strings.lean`: names as JSON pointers, writes and reads of the shared document (type_handlers.py `StringHandler`, string_leaf_handler.py) | Injectivity of pointers up to prefixes, then an invariant over the writes: `C92_strings`, `C92_nothing_else`. Findings: names with tildes fail the save (`C92_tilde_fails`); a name that continues another with a slash is never restored beside it (`C92_slash_fails`). The JSON driver is modelled after its documentation |
| C93 | `Verif/Handlers/Msgpack.lean`: conversion, chunks, extension types, reading back, with the chunk size and the limit of the format as parameters (msgpack_utils.py) | Structural induction over trees: `C93_round_trip`, `C93_any_size`. Findings: arrays stored with the most significant byte first come back with their bytes swapped (`C93_big_endian_fails`); integer keys are written and cannot be read (`C93_int_key_fails`); a user's dictionary with the reserved key is lost (`C93_reserved_key_fails`); large arrays in lists and tuples are refused (`C93_large_in_list_fails`). The msgpack library is modelled as a faithful codec |
| C94 | `Verif/Snapshots/Model.lean`: the queue, the worker, calls of save and load in progress, lost replicas, objects in memory (snapshotter.py) | Invariants over all runs: `C94_order`, `C94_join`, `C94_latest`, `C94_whole`, `C94_load`, `C94_replicas`, `C94_forward`. Findings: a load that resets puts back the snapshot it has read, whatever has been kept meanwhile (`C94_reset_fails`); after an exception that is not a runtime error the worker is gone, saves are dropped and join hangs (`C94_worker_fails`); leaves that are not JAX arrays are kept by reference (`C94_objects_fails`) |
| C95 | `Verif/Handlers/LeafRegistry.lean`: registrations, specificity scores, stable sort, look-ups, the V0 registry made from it, the standard registry (registry.py, compatibility.py) | Invariant over all histories of `add` (scores are counts of registered base classes, so a subclass scores strictly higher): `C95_most_specific`, `C95_abstract_most_specific`, `C95_exact`, `C95_order`, `C95_add`, `C95_type_handlers`, `C95_standard`. Findings: NumPy numbers, documented as registered, have no handler (`C95_numpy_numbers_fails`); registering a class with an existing handler can change the type string written for the classes it had (`C95_type_string_fails`) |
| C96 | `Verif/Export/Validate.lean`: results, conversion to dicts, flattening, splitting, `np.allclose`, mismatches, the report (validation_*.py); numbers are rationals, NaN or infinities | Alignment of the sorted outputs by induction: `C96_as_coded`, `C96_pass_iff_partial`, `C96_identical`. Findings: the tolerances are exchanged (`C96_tolerance_fails`); an integer tensor counts as different only if every element differs (`C96_elements_fails`); an empty one differs from itself (`C96_empty_fails`); NaN is never equal (`C96_nan_fails`); shapes are not compared (`C96_shape_fails`); a bare array cannot be validated (`C96_array_fails`) |
| C97 | `Verif/Export/Manager.lean`: the module's variables and JAX parameters, `update_variables`, `get_infer_step`, `inference_fn`, `_process_serving_configs`, save and load, the validation baseline; conversion by jax2tf is taken to preserve what a function computes | `inference_fn` against an inductive specification, induction over configurations and histories of updates: `C97_accepts`, `C97_signature`, `C97_update`, `C97_saved`, `C97_baseline`. Findings: a refused update leaves the JAX functions with the new parameters (`C97_refused_update_fails`) or the variables with a mixture (`C97_partial_update_fails`); pre-process-only export gives every signature the last pre-processor (`C97_preprocess_only_fails`); passthrough without pre-processor (`C97_passthrough_fails`); nothing is saved for an Orbax Model (`C97_orbax_model_fails`) or with converter options (`C97_converter_fails`) |
| C98 | `Verif/Export/Signature.lean`: default values, Python's binding of arguments, auto-batching (utils.py:138-343); tensors are lists of rows | Induction over parameters and tensors: `C98_accepts`, `C98_call`, `C98_batching`, `C98_rows`. Findings: the order that the documentation asks for is refused (`C98_documented_order_fails`); a primary tensor with a default of one row is not tiled (`C98_primary_default_fails`) |
| C99 | `Verif/Export/ExportedMap.lean`: saving and loading a map of exported functions on a file system (utils.py:420-483); serialization is assumed to be invertible | Induction over the map: `C99_round_trip_partial`, `C99_no_overwrite`, `C99_keeps`. Findings: relative paths never work (`C99_relative_fails`); keys with a slash (`C99_slash_fails`); an interrupted save is loaded in part (`C99_interrupted_fails`); an empty map (`C99_empty_fails`) |
| C100 | `Verif/V1/Creation.lean`: a transition system of processes, coroutines, the lock, `mkdir`s and the barrier (async_utils.py:38-252) | Invariants over all reachable states: `C100_created_partial`, `C100_once`, `C100_progress`. Findings: after a failed creation the other coroutines get the path all the same (`C100_failed_creation_fails`, `C100_missing_directory_fails`) |
| C101 | `Verif/Handlers/Json.lean`: both JSON handlers (json_checkpoint_handler.py, v1 json_handler.py) with Python's `json` on trees; several hosts; a background thread and a program that changes the object | Mutual induction over values: `C101_round_trip` (an equivalence), `C101_reads`, `C101_hosts`, `C101_every_host`, `C101_version0`, `C101_version1`, `C101_versions`, `C101_background_partial`. Findings: the object is not copied when save is called (`C101_changed_object_fails`); tuples, keys that are not strings, and keys with the same text are accepted and changed or lost (`C101_tuple_fails`, `C101_number_keys_fails`, `C101_same_name_fails`) |
| C102 | `Verif/Manager/Metrics.lean`: metrics as objects of the program that the manager refers to (checkpoint_manager.py:1459-1552, 1806-1862, 2001-2017), with the model of `BestN` of C05 | Invariant over all programs: `C102_list_partial`, `C102_best_partial` for programs that do not change metrics they have given away. Findings: a program that updates one dictionary makes the manager believe in wrong metrics and delete the best checkpoint (`C102_reused_list_fails`, `C102_reused_deletes_best_fails`, `C102_changed_in_flight_fails`) |
| C103 | `Verif/Handlers/RandomKey.lean`: both random key handlers (random_key_checkpoint_handler.py), with the JSON of C101 for the metadata; `key_data` and `wrap_key_data` of JAX as documented | Case analysis and induction over trees: `C103_raw`, `C103_typed_partial`, `C103_refused`, `C103_numpy` (equivalences). Findings: the implementation is not saved, so keys of another one become other keys (`C103_other_implementation_fails`, `C103_default_changed_fails`) or cannot be saved (`C103_other_shape_fails`) |
| C104 | `Verif/Emergency/Handoff.lean`: the pending save of the Pathways controller, its background thread and the calls save, wait_until_finished, check_for_errors, close, is_saving_in_progress (colocated_controller.py), all interleavings and answers, with a log of visible effects; latest_step and the workers' reports; spec `HandoffSpec.lean` (over the log only) | Invariant over executions (`HandoffLemmas.lean`): `C104_one_at_a_time`, `C104_dataset`, `C104_payload`, `C104_wait`, `C104_close`, `C104_poll`, `C104_synchronous`, `C104_errors`; `C104_unanimous`, `C104_latest_partial`, `C104_latest_is_common`. Findings: one failed hand-off disables the controller for good (`C104_error_is_final_fails`); dataset state waits in memory for the next call (`C104_dataset_waits_for_next_call_fails`, `C104_latest_without_dataset_fails`); a declined dataset save is unnoticed (`C104_declined_is_unnoticed_fails`); more than 128 steps (`C104_latest_of_many_fails`) |
| C105 | `Verif/Emergency/Ranks.lean`: validation of ranks and peers and the loop that collects peers (initialization.py), grouping of devices by worker (pathways.py), ranks, accepted topologies, peers and remapped device ids (pathways_topology.py); spec `Grid` in `RanksProps.lean` | Arithmetic of quotient and remainder, sorting as a permutation: `C105_standard`, `C105_mutual`, `C105_standard_refuses`, `C105_one_per_slice`, `C105_order_independent`, `C105_workers`, `C105_accepts` (exact), `C105_peers`, `C105_remap`. Finding: the slice a process is in is assumed, not looked at; with processes dealt to slices in turn all peers are in the node's own slice (`C105_interleaved_slices_fails`) |
| C106 | `Verif/Emergency/Markers.lean`: names of markers with the regular expression's search, error files, the polls, the request file, the coordinator's address (initialization.py); the service is an arbitrary function on the directory at every poll; spec (`Named`, `StepMarker`, `NoCheckpoint`, `Failed`) in `MarkersProps.lean` | `C106_marker_name` (exact, unique reading), `C106_decimal`, `C106_restore`, `C106_no_checkpoint`, `C106_wait`, `C106_block`, `C106_request_taken`, `C106_order`, `C106_colocated_order`, `C106_failure_raised`, `C106_interval`, `C106_init_info`. Findings: one foreign `*.restore` name blocks every attempt (`C106_foreign_name_fails`); a directory of that step blocks every attempt (`C106_existing_directory_fails`); a marker of another job is taken (`C106_other_job_fails`); an empty failure file is ignored (`C106_empty_failure_fails`); a failure of an earlier request is raised (`C106_stale_failure_fails`); a half-written address is used (`C106_partial_info_fails`) |
| C107 | `Verif/Handlers/Places.lean`: `os.path.normpath`/`join`, the place of a store (`build_kvstore_tspec`), process subdirectories and their reading back, keys of an array, merging and validation (ocdbt_utils.py), sharding pointers with base64; spec (`Comp`, `localDir`, `bucketDir`, `PidText`, `Writer`) in `PlacesProps.lean` | `C107_local_place`, `C107_bucket_place`, `C107_spelling`, `C107_relative`, `C107_own_database`, `C107_process_id`, `C107_bad_process_id`, `C107_merged_database`, `C107_direct`, `C107_read_back` (end to end), `C107_nothing_to_merge`, `C107_validated` (exact), `C107_sharding_pointer`. Findings: a name beginning with a slash leaves the directory (`C107_outside_fails`); `_METADATA` as a parameter (`C107_reserved_name_fails`); a parameter that was not written at all is not noticed (`C107_absent_parameter_fails`); no validation with Zarr 3 (`C107_zarr3_fails`); validation always fails with another metadata file name (`C107_metadata_key_fails`); a directory with another `_` is not merged (`C107_foreign_directory_fails`); a bucket directory with a component ending in `gs:` loses the save silently (`C107_bucket_component_fails`) |
| C108 | `Verif/Handlers/Leaves.lean`: resolution of storage options, choice of the leaf handler for saving and loading, the arguments made from an abstract leaf, reading by the scalar, NumPy and array handlers, metadata and metadata as an abstract tree; spec (`First`, `Asked`, `UseSharding`, `Same`) in `LeavesProps.lean` | `C108_options`, `C108_stored`, `C108_saved_iff`, `C108_tree`, `C108_number_iff`, `C108_numpy`, `C108_sharded_iff`, `C108_padded` (exact tables), `C108_asked_partial`, `C108_round_trip`, `C108_metadata`, `C108_metadata_target`. Findings: the shape of an abstract NumPy leaf is not used (`C108_numpy_shape_fails`); NumPy scalars are refused although documented (`C108_numpy_scalar_fails`) and an abstract NumPy scalar gives an array (`C108_numpy_scalar_asked_fails`); `str` gives an array (`C108_string_asked_fails`); one `bool`, or a number stored as `bfloat16`, makes the metadata of the tree unreadable (`C108_metadata_fails`); a storage type for all leaves changes integers (`C108_integer_storage_fails`) |
| C109 | `Verif/Async/Runner.lean`: the event loop as a queue of callbacks (task creation, steps, done callbacks, `_shutdown_tasks`, `gather`, `loop.stop`) and the threads that call `run_coroutine` and `shutdown`; `Verif/Async/Response.lean`: `result` and `on_complete` line by line for any number of threads. Spec: logs of what is seen from outside (`OnlyWaitingCall`, `Called`, `OneAtATime`, `registrations`, `invocations`) in the Props files | invariants of all histories: `C109_waits`, `C109_quiet`, `C109_accepts`, `C109_outcome`, `C109_result`, `C109_callback`, `C109_callback_failure`, `C109_callbacks_all`, `C109_sequential`; measures for progress: `C109_returns`, `C109_cancels`, `C109_ends_partial`; `C109_stopped_partial`. Findings: `shutdown(wait=False)` abandons suspended coroutines (`C109_nowait_fails`); tasks started late are not waited for (`C109_children_fails`); a failed operation leaves its thread running forever (`C109_failure_leak_fails`); two threads in `result` can get AttributeError (`C109_two_threads_fails`); a callback that calls `result` blocks the loop forever (`C109_callback_result_fails`) |
| C110 | `Verif/Path/Hns.lean`: `parse_gcs_path` with `urlparse`, `dirname` and `rstrip` on characters, the rounds of `cleanup_hns_folders` against a bucket that refuses to delete folders that are not empty, `rmtree`, listing of steps; spec (`Stored`, `Below`, `Target`) over lists of names in `HnsProps.lean` | invariant of the rounds and a measure (longest names are leaves): `C110_ends`, `C110_only`, `C110_gone`, `C110_cleanup`, `C110_objects_safe`, `C110_rmtree`, `C110_sibling`, `C110_listing`. Findings: nothing is found or cleaned up in the root of a bucket (`C110_root_fails`); names with `?` or `#` are cut, so that another directory is deleted (`C110_special_fails`) or deleting fails half way (`C110_special_raises_fails`) |
| C111 | `Verif/Multihost/Transport.lean`: ids read out of texts, listing of devices of backends, both loops of the map of CPUs, resolving, meshes written and read as ids, shardings, restore arguments, sharding metadata, trees, callbacks; JAX as a function from devices to CPUs; spec (`ShowsId`, `Visible`, `Names`, `OnHosts`, `LeafOnHosts`) in `TransportProps.lean` | induction over the loops: `C111_shows`, `C111_lookup`, `C111_ambiguous`, `C111_resolve`, `C111_missing`, `C111_mesh`, `C111_normalize`, `C111_unique`, `C111_sharding`, `C111_leaf`, `C111_tree`, `C111_movable`, `C111_back`, `C111_zeros`. Findings: a CPU of another host is silently taken for an own one with that local id (`C111_invisible_fails`); sharding metadata are looked up in the wrong numbering (`C111_metadata_fails`); specifications without sharding and layouts cannot be moved (`C111_unspecified_fails`); `make_scalar_array_like` works only without dimensions (`C111_scalar_fails`) |
| C112 | `Verif/Multihost/Dispatch.lean`: choice of inputs and specifications, preparation, wrapper, dispatch with the calls made; colocated Python as its contract; spec in `DispatchProps.lean` | case analysis, sorting commutes with moving: `C112_once`, `C112_call`, `C112_result`, `C112_runs`, `C112_discard`, `C112_devices`. Findings: empty specifications are taken for none (`C112_empty_fails`, `C112_empty_ran_fails`); the array signalling completion is on another mesh if CPUs are numbered differently (`C112_order_fails`); numbers among inputs (`C112_number_fails`); devices outside the mesh are not used (`C112_outside_fails`) |
| C113 | `V1/MultiSave.lean`: the program of each process of a V1 save (look, remove, create, write, merge, commit), barriers by key, shared destination and temporary directory, schedules with stops; `_check_directory_consistency` | An invariant over all schedules (`V1/MultiSaveLemmas.lean`), a measure for progress and a description of all states in which nobody can move (`V1/MultiSaveLive.lean`). Without `overwrite`, and with nothing there, the claim holds. With `overwrite` a save either finishes or hangs (`_partial`); findings: for every number of processes from two on there is a schedule after which it can never finish, with the old checkpoint deleted. |
| C114 | The same model; a switch says whether the handler waits for the other processes | From the same invariant: complete when it appears, never changed later, there when a process returns. Finding: with a handler that does not wait (`StatefulCheckpointable`, custom ones) the checkpoint is committed without the data of a slower process. |
| C115 | `V1/Keys.lean`: the key and the participants of every wait of a V1 save, partial save, load, asynchronous load and finalization, as texts; the counter of operations | Keys are parsed back: the operation id, the prefix and the name can be read off a key, hence all keys of a history differ (`_partial`: with another operation between finalizations, and asynchronous loads that end before the next operation). Findings: repeated finalization reuses keys; asynchronous loads take the id current at their end, so the key depends on timing; PyTree keys ignore the prefix; saves by a subset wait for all processes. |
| C116 | `Partial/Multi.lean`: `finalize` as a program of every process: three barriers, looking at the path, merging and renaming on the primary, the broadcast of the outcome; schedules with stops | Invariant over all schedules (who has arrived where, what is at the path, what was told); progress by a measure on positions. Findings: with `active_processes` a proper subset the broadcast waits for the whole job, so the call never returns though the checkpoint is published; an error of the merge other than `ValueError` and `OSError` leaves the other processes waiting. |
| C117 | `Handlers/ArrayArgs.lean`: `ArrayRestoreArgs.__post_init__`, `_update_array_restore_args`, reading with `strict` or padding, for one leaf | Case analysis for all stored arrays, targets and arguments. Findings: a target without axes is ignored though `strict` (the empty shape counts as no shape), so neither its element type nor its shape is used; without `strict` the target is ignored altogether. |
| C118 | `Handlers/Batches.lean`: grouping by handler as an insertion-ordered dictionary of four parallel lists, `execute_save`, `execute_restore`, putting results back by `zip`, the filter of partial saves | Invariant of the grouping by induction over the leaves; restored values by the law of the dictionary. Finding: a handler that gives back too few values is not noticed. |
| C119 | `V1/MetadataApi.lean`: `metadata` and `checkpointables_metadata` with those of both layouts, on the directories and registries of C81/C82 | Consequences of what a save leaves behind (C82) and of finding the same handler again (C81), for all registries and codecs. Findings: metadata of one tree needs handlers for everything in the checkpoint; a handler's error, whatever it is, becomes `None`; an old checkpoint with named items and a tree at its top is described but not loaded. |
| C120 | `Handlers/ArrayWrites.lean`: what `serialize` does before it returns, and the background work as a transition system interleaved with a caller that changes device contents; with a dispatcher the worker's steps interleave with the controller's; batches of C31 | Invariant over all reachable states that splits the batches into finished, current and pending ones and lists the possible histories of an array; a second invariant for the values. Findings: with a limit, a callback that returns no priority loses the array silently; with a dispatcher no transfer has ended when `serialize` returns and `on_transfer_end` can come too early; arrays without priority may be transferred together with those that have it. |
| C121 | `Emergency/SingleReplica.lean`: meshes as tables of devices with owners, the checks of `deserialize`, which process reads which row, what each device contributes to the sum, batches and types of C75 | Every device outside the primary row contributes zero if no primary process has devices in an earlier row, so the sum of C75 is the stored shard. Findings: the check for mixed hosts never rejects, and such hosts can double and lose shards; all arrays are put on the mesh of the first; missing shapes make processes diverge; random keys are not wrapped; types are promoted; meshes with one axis are refused. |
| C122 | `Handlers/Pathways.lean`: `serialize` up to the running writes, the background wait as a transition system with writes that end in any order, `deserialize` with grouping by mesh, requests, conversion and placement, the choice of the handler | Grouping is shown to be a partition by mesh; the groups' results are placed where a single request for the array would put them; round trip by composing with what was written. Findings: several types can be written but not read; one location per group; other key implementations accepted; keys without shape or metadata; writes left running after an error; registration drops options. |
| C123 | `Deleter/Parallel.lean`: the file system as paths with kinds, one call of `delete` as a transition system of the scanning thread (with its stack of directories), the scheduler (each of its three checks a step of its own) and the pool; `rmtree` as a relation that may stop half-way; the choice of the deleter | Invariant: every remaining file is queued, below a directory still to be scanned, or cannot be removed; directories and what cannot be removed stay until `rmtree`. Termination by the number of entries below the directories still to be scanned. Findings: a link to a directory is emptied before the error; any other exception of the scanning thread blocks forever; remote paths ignore the number of threads. |
| C124 | `Futures/SyncValue.lean`: the processes as a transition system, each step of `set` (first barrier, lock and assignment, second barrier, timeouts) a step of one process; `get` possible when the lock is free | Invariant: whoever may be read has passed the second barrier, so everybody has assigned; termination: the process that is least far can always go on. Findings: a timeout of the second barrier leaves two values; barriers do not distinguish calls; reads wait for other processes. |
| C125 | `Export/Obm.lean`: the constructors of `JaxModule` and `ObmModule` with every check in order, kwargs to options, normalization, constraints, platforms, bfloat16; specification in `ObmSpec.lean` | Each step characterized, then success iff the arguments are in order; the contents of the module as membership. Findings: `save_shlo_to_file` cannot be read, `loader_type` and weights names are not compared, extra entries and unknown keywords are ignored, options of the other export are ignored, Python floats stay. |
| C126 | `Tiering/Auth.lean`: the token from the headers, the permission functions, and the handlers as lookup, check, effect; storage systems' answers and effects on the database are parameters | Per handler: a change implies the permission, by cases over the branches; denial implies a missing permission. Findings: any token is accepted at this commit, keep-alives and Info are unchecked, existence leaks, prefetch writes with read permission. |
| C127 | `Tiering/Transfer.lean`: choice of the client, the three copy requests, what a poll concludes from a reply, the stored status through its protocol buffer, and the worker's steps on one copy job; replies of the services are free | Paths: with C68's facts about storage paths. Histories: an invariant (nothing requested, refused, or under way with this operation) over all events. Outcome: by cases over the reply, both directions. Findings: garbled replies and lost replies fail a job for good, a dead worker repeats the request without identifier, replies may replace the operation or block completion, no slash for copies between buckets, no copies between Lustre systems. |
| C128 | `Path/Format.lean`: `is_orbax_checkpoint` and its helpers over a tree of files; the names of files that saving leaves for trees (four combinations of options), steps and plain checkpointers | The answer is characterized by a specification that only speaks of entries (both directions, all directories); what is written is then put through it. Findings: trees in the newer array format without a database and trees of strings are not recognized; roots of plain checkpointers, roots of managers with an item `checkpoint`, unfinished saves and TensorFlow checkpoints are. |
| C129 | `Tiering/Config.lean`: `parse_config` over YAML values of every type, with the ranges of the message fields; `int` and `str` of Python and the parser of durations are parameters | Equivalence with a relational specification, function by function, for all values; consequences from it. Findings: misspelled keys are ignored, intervals and numbers of jobs that are zero or negative are accepted, empty values are treated in three ways, several places are reduced to one, a text of regions becomes its letters. |
| C130 | `Export/Processor.lean`: `prepare`, the generator of symbolic shapes with its counter, the choice of inputs, and the places of saved parameters; the conversion is a parameter that may raise | Invariant of the counter over dimensions and inputs gives distinct symbols; acceptance as an equivalence; retry and once by cases; directories by the last segment of paths. Findings: first unknown sizes of all inputs are tied together, user names may coincide with generated ones, unknown ranks always raise although foreseen, absolute paths leave the model, equal weight names share one key. |
| C131 | `Export/DTensor.lean`: the loop that makes a layout out of a partition spec, with consolidation; the specs of a tree; programs with nested contexts. Which piece a device holds is specified by mixed-radix numbers of the coordinates; `pack` and resharding are trusted to follow layout and spec | Induction over the spec; axes of size one contribute nothing to the piece numbers; acceptance as an equivalence; contexts against a semantics with the mesh as parameter. Findings: enabling no mesh keeps the outer one, consolidation without the optional mesh raises, an axis with empty name is packed as if unsharded. |
| C132 | `Handlers/Snapshot.lean`: a heap of mutable objects; what each handler copies during the call and what it reads in the background, at once or field by field; the metrics kept by a manager | Induction over all interleavings of acts of the program and steps of the background. Findings: documents, metrics and custom metadata changed after the call are stored changed; a protocol buffer may be stored with contents it never had; metrics of a reused object are all equal. |
| C133 | `Manager/Items.lean`: the constructor's arguments, the mode of the default item, `save`, `restore` and `item_metadata` with `args` and in the deprecated form, which items have handlers, histories of several managers and directories | An order on managers that all calls respect (directory, mode, accepted names), induction over histories. Findings: a refused call or a restore of a missing step fixes the way of use; named items with one called "default" cannot be restored by name; an item called "metrics" is replaced; `items` given with `args` is ignored; the deprecated form never works without handlers; a refused save can remove a checkpoint. |
| C134 | `Export/Config.lean`: `bool_env`, `Config` with definition, update, read and attribute, the context managers with the saved previous value, hooks, histories of threads | invariant relating thread-local values and saved values to the stack of open blocks of a separate specification, by induction over histories; findings by computation |
| C135 | `Store/Modes.lean` on top of `Store/Model.lean`: options and the class they give, events of programs with different options, acceptance by V0 and V1 | invariants (a committed directory stays; a committed directory comes from a requested save; with renames every unmarked directory is committed) by induction over mixed histories; findings by computation |
| C136 | `Handlers/TypeNames.lean` on top of `Handlers/Composite.lean`: registering arguments and handler classes, names of classes, restoring with the names in the checkpoint | the names after any history equal a separate specification (induction over registrations); membership of registrations in the tables; end-to-end theorem from saving in one program to restoring in another; findings by computation |
| C137 | `Handlers/CompositeMap.lean`: constructor with reserved names, item and attribute access, `&` and `\|` with composites and dictionaries | induction over the items; merging and selecting of dictionaries characterised by lookups and key order; findings by case analysis |
| C138 | `Emergency/ChunkDebug.lean`: numbers of chunks from indices and back, parsing of Zarr keys, the report of present and missing chunks | induction over the dimensions, with the grid cell of every position unique; induction over keys and devices; findings by explicit stores |
| C139 | `Emergency/PeerSaves.lean`: save, should_save, delete and all_steps over a local and an optional persistent manager, with schedules and retention | invariants over every program of saves and deletions; arithmetic of the schedules; induction over sorted lists for retention; findings by explicit histories and for every such state |
| C140 | `Trees/Nesting.lean`: unflatten of model surgery with separator, target and in-place work, over the flat dictionaries of C40 | induction over paths and insertions for the leaves of the tree; induction over the string for split and join; findings by explicit parameters |
| C141 | `Metadata/ValueEq.lean`: the comparison methods of the classes of value metadata, and the order in which Python tries them | case analysis over the classes with arbitrary fields |
| C142 | `Trees/Inferred.lean`: inference of the structure from a directory, and placeholders | induction over the listing, with the lemmas on insertion of C140; splitting and joining at dots are inverse |
| C143 | `Emergency/Serve.lean`: the answer to a request for a file, on file systems without symbolic links | independence of two file systems that are alike below the directory; composition with the theorems on paths and downloads of C71 |

Every property in the list is expressible in a model; none is declared not applicable at this point.

## Findings

Inputs, schedules or crash points at which the English property is false of the code as read.  Each
is a theorem whose name ends in `_fails`, proved with a witness or for a whole class of states.

* `C01_negative_n_fails` — Finding (C01): the guard `0 ≤ n` is needed. `LatestN(n=-1)` is not rejected and yields *more* flags than checkpoints.
* `C03_max_to_keep_zero_fails` — Finding (C03): the full bound fails at `max_to_keep = 0`. `true_indices[:-0]` is empty, so `EveryNSteps(1, max_to_keep=0)` keeps every checkpoint instead of none.
* `C05_n_zero_drops_metricless_fails` — Finding (C05): with `n = 0` the flag `keep_checkpoints_without_metrics=True` is ignored: a checkpoint without metrics is dropped.
* `C06_no_children_fails` — Finding (C06): with no children the result is not a list of flags at all (numpy's `any` of an empty array is the scalar `False`), although checkpoints may exist.
* `C07_unordered_fails` — Finding (C07): when times are not in list order, an old checkpoint listed after a recent one is kept although it is older than the duration.
* `C08_in_progress_stuck_fails` — Finding (C08): `save(step, force=True)` for a step that exists raises `StepAlreadyExistsError` *after* setting the save-in-progress flag (checkpoint_manager.py:1473-1477), which nobody clears; from then on, in every history of unforced saves, deletes, reloads and waits, no save is ever accepted under `ContinuousCheckpointingPolicy`: checkpointing has silently stopped.
* `C09_forced_save_fails` — Finding (C09): the restriction to non-forced saves is needed. `save(5)`, then `save(3, force=True)`: `latest_step()` is 3 although step 5 is committed and listed.
* `C09_policy_drops_newest_fails` — Finding (C09): the restriction to policies that keep the newest is needed. With `max_to_keep=0` `save(5)` returns `True` and afterwards there is no checkpoint at all.
* `C100_failed_creation_fails` — C100 (finding): when the creation has failed in a process, every other coroutine of the process that waits for it gets the path as if nothing had happened: nothing is made, and the creation is not attempted again.
* `C100_missing_directory_fails` — C100 (finding): so a coroutine can be given a directory that does not exist.
* `C101_changed_object_fails` — C101 (finding): the object is not copied when `save` is called. If the caller changes it after `save` has returned and before the thread has run, the changed value is what is saved: for any two values.
* `C101_number_keys_fails` — C101 (finding): a dictionary from numbers (a table by step, say) is accepted and comes back with strings as keys.
* `C101_same_name_fails` — C101 (finding): keys that have the same name are accepted, and all values but the last are lost.
* `C101_tuple_fails` — C101 (finding): a tuple is accepted and comes back as a list.
* `C102_changed_in_flight_fails` — C102 (finding): an asynchronous save records the metrics of the moment at which the thread writes them.
* `C102_reused_deletes_best_fails` — C102 (finding): with such a program and `BestN(1)` the best checkpoint is deleted and a worse one is kept: for any two values, whichever is better.
* `C102_reused_list_fails` — C102 (finding): a program that keeps one metrics dictionary, updates it and passes it to every save. The manager holds the dictionary, not its contents: after the update the manager believes that the first checkpoint has the new value as well. Its storage says otherwise.
* `C103_default_changed_fails` — C103 (finding): if the default implementation is another one when the key is restored, the key changes or cannot be restored; it is never the same key.
* `C103_other_implementation_fails` — C103 (finding): the implementation of a key is not saved. A key of another implementation whose data has the same shape (`rbg` and `unsafe_rbg`) is accepted and silently comes back as a key of the default implementation: another sequence of random numbers.
* `C103_other_shape_fails` — C103 (finding): a key of an implementation whose key shape has another length in the last dimension than the default one (`rbg` when the default is `threefry2x32`) cannot be saved, because its data is checked as if it were a raw key.
* `C104_dataset_waits_for_next_call_fails` — **C104** (finding): with asynchronous checkpointing the dataset state of a save that returned `True` is kept in memory until the next call: after any save, and whatever the workers and the background thread do then, the persistent manager has been handed no dataset state that it was not handed before.
* `C104_declined_is_unnoticed_fails` — **C104** (finding): a persistent manager that declines to save the dataset (its `save` returns `False`) is not noticed: draining goes on as if it had saved.
* `C104_error_is_final_fails` — **C104** (finding): the error is never forgotten. After one save whose answer is an error, whatever is done, no save is sent to the workers any more and no `save` returns `True`; every `wait_until_finished` and every `close` raises.
* `C104_latest_of_many_fails` — **C104** (finding): a worker reports only its last 128 steps. If one worker has 128 later steps, a step that all workers have, and that may be the only one, is not found: the latest step is `None`.
* `C104_latest_without_dataset_fails` — **C104** (finding): the latest step may have no dataset state: with `C104_dataset_waits_for_next_call_fails`, if the program stops before the next call, restoring the latest step with dataset state raises, although an earlier step has both.
* `C105_interleaved_slices_fails` — **C105** (finding): which slice a process is in is not looked at. If the processes are dealt to the slices in turn (process `j` is in slice `j % k`, with a multiple of `k` processes per slice) all peers of every process are in its own slice: losing a slice loses its checkpoints.
* `C106_empty_failure_fails` — **C106** (finding): a failure file that is empty, or that cannot be read, is deleted and initialisation goes on.
* `C106_existing_directory_fails` — **C106** (finding): if a directory is in the place of the highest announced step, the poll raises; no marker is taken and none is removed, so every later attempt raises too.
* `C106_foreign_name_fails` — **C106** (finding): one file whose name ends in `.restore` and is not a marker makes the poll raise, whatever else is announced; no marker is taken and none is removed, so every later attempt raises too.
* `C106_other_job_fails` — **C106** (finding): the job a marker names is not compared with the job that is starting. A marker that another job left, with a higher step, is taken, and the marker of the job itself is deleted.
* `C106_partial_info_fails` — **C106** (finding): a file that is being written is read as if it were complete: after any first part of the address, that part is used as the address.
* `C106_stale_failure_fails` — **C106** (finding): a failure file left over from before the request is raised as if it were about this request, although the replicator took the request and touched nothing else.
* `C107_absent_parameter_fails` — C107 (finding): a parameter of which nothing at all was written is not noticed.
* `C107_bucket_component_fails` — C107 (finding): in a bucket, if a component of the directory ends in `gs:`, everything is written to another place; the merge finds no database and does nothing, without an error, so that there is nothing to read.
* `C107_foreign_directory_fails` — C107 (finding): a directory whose name begins like one of a process and has another `_` in it is not merged: the database of another process is read in its place.
* `C107_metadata_key_fails` — C107 (finding): with a metadata file of another name, which the handlers allow, no validation ever succeeds.
* `C107_outside_fails` — C107 (finding): without OCDBT, a parameter whose name begins with a slash is written outside of the checkpoint directory, whatever that is.
* `C107_reserved_name_fails` — C107 (finding): without OCDBT, a parameter called `_METADATA` is stored where the metadata of the tree is.
* `C107_zarr3_fails` — C107 (finding): with Zarr version 3 nothing is validated: a merge that succeeds without validation succeeds with it.
* `C108_integer_storage_fails` — C108 (finding): a storage type given for all leaves is applied to Python integers too: what comes back is the integer converted to that type, for example a step counter rounded to `bfloat16`.
* `C108_metadata_fails` — C108 (finding): one number in a tree stored with a type that is neither an integer nor a float of NumPy (a `bool`, or any number if the storage type is `bfloat16`) makes reading the metadata of the whole tree fail.
* `C108_numpy_scalar_asked_fails` — C108 (finding): asked for a NumPy scalar (a value or a type), an array is returned.
* `C108_numpy_scalar_fails` — C108 (finding): a NumPy scalar, other than an `np.float64`, is documented as a leaf that can be saved, but a tree with one is refused.
* `C108_numpy_shape_fails` — C108 (finding): the shape of an abstract NumPy leaf is not used: an array of any other shape is loaded, without an error.
* `C108_string_asked_fails` — C108 (finding): asked for `str`, an array that was saved is returned as an array; a value of type `str` makes loading it fail.
* `C109_callback_result_fails` — C109 (finding): a callback given to `on_complete` that asks the response for its result waits for itself, although the operation has ended: callback 0 runs in the thread of the loop, where `result` shuts the loop down and waits until that thread is free. Whatever happens then, the thread never ends and the callbacks behind it (here callback 1) are never called.
* `C109_children_fails` — C109 (finding): a task that a coroutine starts after `shutdown(wait=True)` has looked for tasks is not waited for, although the documentation says that all tasks are: it is abandoned, and never ends.
* `C109_failure_leak_fails` — C109 (finding): if the operation fails, nothing ever stops the thread and the event loop that were made for it, however often `result` is called: the error is raised before `shutdown` is reached.
* `C109_nowait_fails` — C109 (finding): `shutdown(wait=False)` does not let the pending coroutines finish without waiting for them: it abandons them. The loop is told to stop right after `_shutdown_tasks` was scheduled, so that a coroutine suspended at that time never ends, and its future is never resolved: whoever waits for it waits forever. A later `shutdown(wait=True)` returns at once and changes nothing.
* `C109_two_threads_fails` — C109 (finding): two threads that wait for the same operation, which succeeds: one of them can get AttributeError instead of the value, because `_runner` is looked at twice.
* `C10_failed_deletion_fails` — Finding (C10): the restriction on garbage collection is needed. With `max_to_keep=1`, if deleting the old step 1 fails after step 2 is saved, step 1 stays on disk but `all_steps()` no longer lists it, so it is never collected again (until `reload`).
* `C110_root_fails` — C110 (finding): in the root of a bucket nothing is found and nothing is cleaned up: the prefix becomes `/`, with which no id begins. A manager for `gs://bucket` sees no steps, whatever is stored.
* `C110_special_fails` — C110 (finding): a path is parsed as a URL, so that what follows a `?` or `#` in a name is lost. Deleting the directory `run#2` (which is empty) leaves it as it is and deletes the folders of the directory `run`, another one.
* `C110_special_raises_fails` — C110 (finding), and it is worse if that other directory holds something: then the deletion of `run#2` fails, although the objects of `run#2` are gone.
* `C111_invisible_fails` — C111 (finding): ids of CPUs that a worker does not see are not reported as such if they happen to be local ids of others: the second of two hosts takes the global ids 0 and 1, which are CPUs of the first, for its own CPUs 2 and 3.
* `C111_metadata_fails` — C111 (finding): a mesh given as a mesh reaches the right CPUs of the worker, but the same mesh given as sharding metadata does not: the global ids in it are looked up among the local ids of the worker, and there restoring fails.
* `C111_scalar_fails` — C111 (finding): the array "with the same shape as `like`, filled with `value`" can be made only for arrays without dimensions: for any other, what is given for a shard never has the shape of the shard.
* `C111_unspecified_fails` — C111 (finding): a specification without a sharding cannot be moved, although its sharding is optional; nor can restore arguments with a layout.
* `C112_empty_fails` — C112 (finding): a function that rightly returns an empty tree for empty specifications is run, and then the dispatch fails: an empty tree is taken for none.
* `C112_empty_ran_fails` — C112 (finding): a function that returns no arrays has been carried out once when the mismatch with the given result specification is reported: the error does not mean that nothing happened.
* `C112_number_fails` — C112 (finding): a number or NumPy array among the inputs makes every dispatch without specifications fail.
* `C112_order_fails` — C112 (finding): if the CPUs are not numbered in the order of the accelerators, the array that signals completion is not on the mesh declared for it: the function has run, and the dispatch fails.
* `C112_outside_fails` — C112 (finding): the devices of results on a single device are not looked at if there is a mesh: the function is run without the device one of its results is to be on.
* `C113_overtaken_never_finishes_fails` — C113 (finding): if the primary has removed the old checkpoint before some other process has looked, the save never finishes in any process, whatever happens next, and nothing is left at the destination.
* `C113_overwrite_hangs_fails` — C113 (finding): for every number of processes from two on, there is a schedule without failures after which an overwriting save can never finish, with the old checkpoint deleted and nothing in its place.
* `C114_unsynchronized_handler_fails` — C114 (finding): with a handler that does not wait for the other processes (a `StatefulCheckpointable`, or a handler of the user's that writes in every process), the checkpoint can be committed without the data of any chosen process other than the primary: for every number of processes, in a schedule without failures.
* `C115_async_load_timing_fails` — C115 (finding): an asynchronous load takes the operation id that is current when it reaches its last barrier. If one process has begun more operations by then than another, they wait at different keys, and the load ends in neither.
* `C115_finalize_twice_fails` — C115 (finding): finalizing two partial saves one after the other, or trying again after a finalization failed, waits at the same keys a second time.
* `C115_prefix_ignored_fails` — C115 (finding): the prefix does not keep groups apart that save PyTrees. Two disjoint groups of processes with different prefixes that save a PyTree of the same name with the same operation id wait at the same key, each for other processes.
* `C115_subset_waits_for_all_fails` — C115 (finding): a save by some of the processes waits for all processes of the job, also for those that do not take part, when the directories are compared.
* `C115_two_async_loads_fails` — C115 (finding): two asynchronous loads that are both still running when the second has begun wait at one key.
* `C116_escaped_error_fails` — C116 (finding). When the merge raises an error that is neither a `ValueError` nor an `OSError`, the primary raises it and no other process ever returns or raises.
* `C116_subset_never_returns_fails` — C116 (finding). When only some processes of the job take part (`active_processes`), `finalize` never returns and never reports a failed merge in any of them: the outcome is sent in a broadcast of all processes of the job.
* `C116_subset_published_fails` — C116 (finding). … although the checkpoint has been published: here by the one process of two that takes part.
* `C117_scalar_dtype_fails` — C117 (finding). A target without axes is not looked at, although `strict`: its element type is not used.
* `C117_scalar_shape_fails` — C117 (finding). … and an array stored with any shape comes back with that shape: the mismatch that is refused for every other target is not noticed.
* `C117_target_ignored_fails` — C117 (finding). Without `strict`, a target is not padded or cut to, nor converted to: with arguments that leave them open the array comes back as stored.
* `C118_short_batch_fails` — C118 (finding). A handler that gives back fewer values than it was asked for is not noticed here: the last leaves of its batch are missing from what was restored.
* `C119_all_handlers_needed_fails` — C119 (finding). Reading the metadata of one tree asks for the handlers of everything in the checkpoint: if one other directory has no handler, `metadata` fails for every tree of the checkpoint, although `load` of that tree does not need that handler.
* `C119_described_not_loaded_fails` — C119 (finding). A checkpoint of the old format that has both named items in its metadata and a tree at its top: `metadata` with `checkpointable_name=None` describes that tree, `load` refuses to load it.
* `C119_error_hidden_fails` — C119 (finding). An unreadable checkpointable is reported like one without metadata: whatever error its handler raised, the entry is `None` and reading the metadata succeeds.
* `C120_lost_fails` — C120 (finding): if a limit is set and the callback's `key_priority` returns anything but a priority, such as the `None` of the method in `SerializationStatusCallback`, the array is dropped: nothing is ever written or called for it, and the save succeeds.
* `C120_sync_not_done_fails` — C120 (finding): with a dispatcher no transfer has ended when `serialize` returns, not even those of the synchronous arrays.
* `C120_together_fails` — C120 (finding): arrays without priority are not kept back until the transfers with priority have ended: if both fit into one batch, they are transferred together.
* `C120_transfer_end_early_fails` — C120 (finding): with a dispatcher `on_transfer_end` may be called for an array transferred in the background while its transfer is still going on.
* `C121_diverge_fails` — C121 (finding): without a shape or a type in one of the arguments, the processes of the primary replica go on to the broadcast while all others raise, so that the restore does not end.
* `C121_dtype_fails` — C121 (finding): without a dispatcher arrays of booleans and small integers come back with another type (C75), with a dispatcher they do not.
* `C121_key_not_wrapped_fails` — C121 (finding): without a dispatcher a random key is restored as its data, not as a key, with or without array metadata.
* `C121_mixed_accepted_fails` — C121 (finding): the check that is to reject processes with devices inside and outside of the primary replica never rejects anything: whatever the owners of the devices, a named sharding whose primary replica is not everything is accepted.
* `C121_mixed_corrupts_fails` — C121 (finding): such a sharding is accepted and can give wrong arrays, with no error raised by this code: with the second replica as the primary one, one shard is added to itself and the other is lost.
* `C121_one_axis_fails` — C121 (finding): a mesh with only the replica axis counts as one replica, so every process without a device in the first replica is refused as not being in the mesh.
* `C121_other_mesh_fails` — C121 (finding): all arrays are put together on the mesh of the first one; an array whose own mesh has the same devices in another order gets its shards in the wrong places, with no error raised by this code.
* `C122_key_as_words_fails` — C122 (finding): without array metadata a key is restored as an array of words, without an error.
* `C122_key_without_shape_fails` — C122 (finding): a key whose type is given without its shape is not restored: the shape of the file, which has the words, is taken for that of the key.
* `C122_late_writes_fails` — C122 (finding): the failure of one write is reported while others are still running, which may end later.
* `C122_location_fails` — C122 (finding): all arrays of one mesh are read from the directory of the first of them, so an array of another directory is replaced by the one of the same name there, or not found.
* `C122_meta_type_fails` — C122 (finding): the array metadata never says the type of an array: saves that would convert are refused, and for all others the type of the (empty) save argument is recorded.
* `C122_metadata_of_all_fails` — C122 (finding): one argument that leaves its shape or type open makes the restore of all arrays depend on the metadata of all files: it fails if that of any array, also of one asked for completely, cannot be read.
* `C122_other_impl_fails` — C122 (finding): a key that is asked for as a key of another implementation with words of the same shape is restored as such a key, without an error, whatever implementation is recorded.
* `C122_registration_fails` — C122 (finding): with the service the request for a single-replica handler is ignored, and array metadata is not kept unless it is asked for, so that the same registration refuses keys that it saves with a dispatcher.
* `C122_started_fails` — C122 (finding): if a write cannot be started, those before it are running already and nothing waits for them.
* `C122_unreadable_fails` — C122 (finding): types that cannot be read are written without an error: the save of one array of such a type is accepted, and restoring it as what it was fails for every service, every sharding and whatever the files say.
* `C123_hang_fails` — C123 (finding): If scanning one directory below the path raises anything but an OSError of `scandir` (the directories are nested deeper than Python recurses, or the kind of an entry cannot be found out), `delete` never ends: the flag for which the scheduler waits is never set, and nothing is raised.
* `C123_link_fails` — C123 (finding): If the path to delete is a symbolic link to a directory, `delete` with several threads always ends with an error, and yet the files of the directory to which the link points are gone. With one thread the error is the same and nothing is removed.
* `C123_remote_fails` — C123 (finding): A number of threads asked for is ignored without a word for paths in a remote file system.
* `C124_get_waits_fails` — C124 (finding): A `get` waits for other processes. Once process `p` has assigned its value it cannot be read until every process has assigned its own: however the others go on, if `q` does not, no `get` in `p` returns (unless the barrier raises).
* `C124_mismatch_fails` — C124 (finding): The barriers do not tell the calls apart. If two processes set different values, both calls return without error and the processes disagree from then on.
* `C124_timeout_fails` — C124 (finding): If the second barrier times out, one process has the new value and another keeps returning the old one, for any two values: the processes disagree for good if the other does not go on.
* `C125_extra_options_fails` — C125 (finding): an entry of the options for a name that no function has is not reported; yet it can make the construction fail.
* `C125_kwargs_ignored_fails` — C125 (finding): keyword arguments with any other name, misspelled ones and those for auto layout and disabled checks among them, are ignored without an error.
* `C125_loader_type_fails` — C125 (finding): options that are documented to be the same for all functions may differ: whatever the loader types of the functions are, the module is built or refused just as if all had none. (`loader_type` is never compared.)
* `C125_other_export_fails` — C125 (finding): options of the other kind of export are ignored without an error.
* `C125_python_float_fails` — C125 (finding): a Python float among the parameters stays as it is although the helper is documented to handle floats.
* `C125_save_shlo_fails` — C125 (finding): the StableHLO option cannot be read from any module: the property raises for a TF export, and for an Orbax Model it reads an attribute that the inner module does not have.
* `C125_weights_name_fails` — C125 (finding): names of weights may differ between functions if there is no path, and are then all dropped.
* `C126_any_token_fails` — C126 (finding): the permission checks of this commit accept every token: a caller that sends `Bearer ` and anything after it, or nothing, may read and write every path on every GCS and Lustre backend.
* `C126_existence_fails` — C126 (finding): a caller that may do nothing can tell whether an asset exists: the lookup comes before the check.
* `C126_info_fails` — C126 (finding): everything about an asset can be read without permission: through `Info`, and through `Prefetch` if the asset is on the closest backend already.
* `C126_keep_alive_fails` — C126 (finding): keeping a reservation or a prefetched copy alive needs no permission: whoever knows the uuid, with any headers or none, gets the same effect.
* `C126_prefetch_write_fails` — C126 (finding): a prefetch makes the service write to the target backend although the caller may not write there.
* `C127_detail_replaces_fails` — C127 (finding): a reply of Lustre whose metadata has a key `request_id` replaces the operation: the next poll asks for another one.
* `C127_fails` — C127: and if the service says so, by a reply with no key of the status, the job fails.
* `C127_garbled_fails` — C127 (finding): a reply that is no JSON (of a proxy, or cut off) fails the job for good, although the copy goes on; no reply at all, or an error code, is tried again.
* `C127_lost_reply_fails` — C127 (finding): any exception while requesting the copy fails the job for good, also one raised after the service took the request (a lost reply): the request was sent, and nothing polls it.
* `C127_lustre_to_lustre_fails` — C127 (finding): a copy between two Lustre file systems is always refused, whatever they are.
* `C127_mount_point_fails` — C127 (finding): with a prefix that ends in a slash, the mount point itself without that slash is not recognized and is passed on as a path inside the file system.
* `C127_no_slash_fails` — C127 (finding): the source and the target of a copy between buckets are passed as they are, without the slash that marks a directory (Lustre imports and exports always add it): the Storage Transfer Service takes the path as a prefix of names, so what lies beside the source under a longer name is addressed as well.
* `C127_request_id_fails` — C127 (finding): the request to the Storage Transfer Service does not carry the identifier of the job, so a second request for the same job cannot be recognized by it; Lustre requests differ.
* `C127_twice_fails` — C127 (finding): a worker that dies before saving the operation lets the next one request the copy a second time.
* `C127_wrong_type_fails` — C127 (finding): an operation that ended well, with a response that uses a key of the status for a value of another type, is never completed: every such poll leaves the job as it is.
* `C128_foreign_fails` — C128 (finding): any directory of files with one called `checkpoint` is recognized, such as a TensorFlow checkpoint.
* `C128_item_name_fails` — C128 (finding): so is the root of a manager that has an item called `checkpoint`, whatever it is.
* `C128_root_fails` — C128 (finding): against the documentation, a root directory that contains a directory written by a plain checkpointer is recognized.
* `C128_strings_fails` — C128 (finding): a tree of strings only is not recognized.
* `C128_unfinished_fails` — C128 (finding): the name of the directory and whether it was finished play no part: a save that was interrupted after the directory was made is recognized, with no item in it.
* `C128_zarr3_fails` — C128 (finding): a tree whose arrays are stored one by one in the newer array format is not recognized.
* `C129_empty_list_fails` — C129 (finding): a list of backends that was left empty is refused, though a missing list is accepted (a server without any storage).
* `C129_interval_fails` — C129 (finding): an interval that is zero or negative is accepted (a reservation ends before it begins), and so is a fraction below one, which becomes zero.
* `C129_letters_fails` — C129 (finding): several regions given as one text become one region for each of its letters.
* `C129_misspelled_fails` — C129 (finding): so a key that is misspelled is ignored without notice, and the default used.
* `C129_no_jobs_fails` — C129 (finding): no jobs at a time, or a negative number, is accepted: no copy is ever started.
* `C129_null_fails` — C129 (finding): an address of the database that was left empty is the text of `None`, not the default; the other texts treat it as not given.
* `C129_place_fails` — C129 (finding): a backend may be nowhere; and of several places only the most special is kept.
* `C129_two_intervals_fails` — C129 (finding): both keys of the interval may be given: the second is not even looked at.
* `C12_cache_forgets_committed_fails` — Finding (C10/C12): after a failed asynchronous save the cache forgets committed steps. `max_to_keep=1`, step 1 committed, `save(2)` fails in the background: step 1 is still on disk, but after the failure is reported `latest_step()` is `None`, and an unforced `save(1)` is accepted, which starts by removing the committed directory of step 1.
* `C12_polled_error_loses_data_fails` — Finding (C12): **data loss**. `max_to_keep=1`, step 1 committed. `save(2)` is started; its background commit fails; the main thread calls `check_for_errors()` (or `restore()`, which waits on the same async checkpointer) before the finalize thread gets to it and receives the exception; `_AsyncManager` hands it out only once (async_checkpointer.py:287-298), so the finalize thread sees no error and deletes step 1.
* `C130_batch_fails` — C130 (finding): the first unknown sizes of all inputs are the same symbol: inputs that are not batched together cannot have different first sizes.
* `C130_collision_fails` — C130 (finding): a user's name may be one of the generated ones: an unknown size is then tied to it.
* `C130_outside_fails` — C130 (finding): with an absolute path the parameters are written outside of the model, at the same place for every model.
* `C130_rank_fails` — C130 (finding): an input of unknown rank is foreseen by the generator of symbols, but never gets there: preparing raises.
* `C130_weights_fails` — C130 (finding): processors that are given the same name for their weights record them under one key.
* `C131_empty_name_fails` — C131 (finding): an axis whose name is empty is taken for none: the pieces of the array are packed as if each were the whole, without an error.
* `C131_mesh_fails` — C131 (finding): allowing consolidation is not enough: without the mesh of JAX, which is optional, every spec that needs it raises.
* `C131_none_fails` — C131 (finding): enabling no mesh inside of another context does not disable the export with that mesh.
* `C132_json_fails` — C132 (finding): a document (an item saved as JSON, metrics, custom metadata) that the program changes after the call, before the background runs, is stored as changed.
* `C132_proto_fails` — C132 (finding): a protocol buffer that is changed while it is printed is stored with contents it never had.
* `C132_reused_metrics_fails` — C132 (finding): a program that uses one object for the metrics of several steps makes them all equal: the best of these checkpoints is decided by the last values only.
* `C133_both_fails` — C133 (finding): an object given together with `args` is silently not saved: the call is the same as without it.
* `C133_default_name_fails` — C133 (finding): named items of which one is called "default" can be saved, but a new manager whose way of use is left open refuses to restore any of them by name.
* `C133_legacy_open_fails` — C133 (finding): on a manager constructed without handlers, the deprecated form never works: the save of an object is refused, and the manager is from then on one of an unnamed item.
* `C133_metrics_name_fails` — C133 (finding): an item that the user calls "metrics" is silently replaced by the metrics, when these are given and tracked.
* `C133_missing_step_fails` — C133 (finding): asking a new manager for a step that does not exist fixes its use to named items: it then refuses to save an unnamed one.
* `C133_names_deprecated_form_fails` — C133 (finding): a manager constructed with names of items, but without handlers, does not save these items in the deprecated form (`save(step, items)`), although it takes them in a `Composite`: for each the form needs a handler, and there is none yet.
* `C133_refused_call_fails` — C133 (finding): a call that is refused is not without effect. A manager whose way of use was left open, called once with something that is no `CheckpointArgs`, raises, and from then on refuses every `Composite`.
* `C133_refused_removes_fails` — C133 (finding): a save that is refused because of an item that was not listed removes the checkpoint of that step, if there is one that the manager did not know of.
* `C134_all_configs_fails` — C134 (finding): a block is not of one `Config`: it overrides the option of the same name of all of them, also of one that has no such option.
* `C134_hook_raises_fails` — C134 (finding): if the hook raises on entering, the block is not entered, but its value stays in force in the thread.
* `C134_order_fails` — C134 (finding): blocks that are not nested, as of two suspended generators, leave an override behind although all are left.
* `C134_read_fails` — C134 (finding): `read` does not see blocks: within a block it gives the global value, not that of the attribute.
* `C134_undefine_fails` — C134 (finding): and undefining an option in one `Config` makes the attribute of every other one unreadable.
* `C135_delete_fails` — C135 (finding): deleting a step ignores the options: on a file system an incomplete checkpoint of a program with commit files stays although `delete` returns, while on Google Cloud Storage it is removed.
* `C135_interrupted_fails` — C135 (finding): a save with commit files that is interrupted is a finished checkpoint, without data, for programs with default options on a file system and for programs with `allow_legacy_atomic_rename`; they do not clean it up, and the step cannot be saved again.
* `C135_leftover_fails` — C135 (finding): the left-over of a save with atomic renames that stopped just before the rename is a finished checkpoint, under its temporary name, for a program with commit files, which never cleans it up.
* `C135_link_fails` — C135 (finding): a symbolic link to an incomplete checkpoint is refused by V0 and read by V1.
* `C135_old_checkpoint_fails` — C135 (finding): without that flag a program that changes to commit files deletes such checkpoints when it starts, complete as they are.
* `C136_refused_fails` — C136 (finding): a registration that is refused because of the name of the handler still takes effect: its arguments are saved with the refused handler class, under a name that stands for another class.
* `C136_same_name_fails` — C136 (finding): what was saved with the handler class that was made first is restored with the one that was made last, in the same program.
* `C136_shared_args_fails` — C136 (finding): when the arguments for restoring with one handler are registered for saving with another, an item is restored with the other handler.
* `C137_attribute_fails` — C137 (finding): reading an attribute that does not exist raises a `KeyError` instead of an `AttributeError`, so that `hasattr(composite, name)` raises instead of being false.
* `C137_order_fails` — C137 (finding): the order of the items of `a & b` is that of a set of strings, which differs between processes: with two common items, both orders occur.
* `C138_empty_fails` — C138 (finding): an array without elements has no report but an exception.
* `C138_repeated_fails` — C138 (finding): a missing shard is listed as often as local devices hold it.
* `C138_scalar_fails` — C138 (finding): a scalar written with Zarr 2 is there under the key `0`, and the report raises an exception.
* `C138_small_chunks_fails` — C138 (finding): if the chunks of the store are smaller than the shards (as with a limit on the size of chunks), their numbers are those of another grid: a shard of which no element is in the store is not reported.
* `C139_delete_fails` — C139 (finding): a step that `all_steps` lists from persistent storage, and that local storage has given up meanwhile, cannot be deleted: for any manager `delete` raises `FileNotFoundError` and the step stays. With the default options this is so of every step but the last.
* `C139_deleted_raises_fails` — C139 (finding): deleting a step that only local storage has (because it is off the persistent schedule) removes it and yet raises `FileNotFoundError`.
* `C139_half_saved_fails` — C139 (finding): forcing a step that persistent storage has and local storage has not raises `StepAlreadyExistsError` although the step was written to local storage, where it may have taken the place of a later one.
* `C139_not_persisted_fails` — C139 (finding): forcing a step that local storage has and persistent storage has not raises `StepAlreadyExistsError`, and the step does not reach persistent storage.
* `C139_should_save_existing_fails` — C139 (finding): after a forced save of an earlier step, `should_save` may say True of a step that is there, and saving it unforced raises.
* `C140_lost_fails` — C140 (finding): nesting in place that raises has already taken the parameters up to the one that does not fit: they are lost to the caller.
* `C140_target_collision_fails` — C140 (finding): a target that has the separator in a key may name two leaves alike; then whatever the parameters are the call raises, and in place the parameter is gone.
* `C141_plain_fails` — C141 (finding): plain metadata are equal to each other, and to wrapped metadata, whatever these hold; so two wrapped metadata that differ are equal to a third object: equality is not transitive.
* `C141_scalar_storage_fails` — C141 (finding): metadata of scalars that are stored differently are equal, where metadata of arrays are not.
* `C142_other_files_fails` — C142 (finding): files that hold no parameter, such as the file of strings, are taken for parameters.
* `C142_strings_fails` — C142 (finding): a string that was not made as a placeholder may be taken for one (it has the older prefix).
* `C143_substitute_fails` — C143 (finding): refused requests are answered with the file `__INVALID__` of the working directory, if there is one, so the answer may hold a file from outside the directory.
* `C14_prevent_write_metrics_fails` — Finding (C14): with `prevent_write_metrics=True` the metrics live only in the process that saved: after a restart `best_step()` is `None` although it was 1 before.
* `C15_forced_save_writes_fails` — Finding (C15): `save(step, force=True)` on a read-only manager writes (the read-only check is inside `should_save`, which `force` skips, checkpoint_manager.py:1417) and then garbage-collects.
* `C16_foreign_names_fails` — Finding (C16): `\d` and `int` accept non-ASCII digits and `$` accepts a final newline, so names other than the canonical one are reported as a step.
* `C16_legacy_empty_prefix_fails` — Finding (C16): with an empty prefix (accepted, giving names like `_5`) the legacy recogniser raises `ValueError`, and with it `checkpoint_steps`.
* `C16_metacharacter_prefix_fails` — Finding (C16): the prefix is interpolated into the pattern unescaped, so with prefix `a+b` the manager does not recognise any name it builds.
* `C16_negative_step_fails` — Finding (C16): a negative step gets a name, but the name is never recognised, so the checkpoint is invisible to `find_all`.
* `C17_negative_step_fails` — Finding (C17): `find_step` finds a checkpoint saved under a negative step, which `find_all` does not list.
* `C19_allow_legacy_fails` — Finding: with `allow_legacy_atomic_rename` every unfinished commit-file save that has created its directory is taken for a finished checkpoint (and is no longer temporary, so it is never cleaned up).
* `C19_discovery_protocol_mismatch_fails` — Finding: discovery that assumes atomic renames (as the v1 training `Checkpointer` does, which builds its default step name format without the atomicity options, experimental/v1/_src/training/checkpointer.py: 185-199) reports commit-file saves as soon as their directory exists.
* `C20_force_overwrite_fails` — Finding (C20 is false): `save(force=True)` over an existing checkpoint first removes it, so there is a crash point at which no version of the step exists.
* `C20_force_torn_version_fails` — Finding (C20 is false, worse): with atomic renames a crash during the removal leaves a checkpoint that is still reported as finished but has lost a file.
* `C21_commit_foreign_directory_fails` — Finding: with commit files clean-up also removes any foreign directory below the root (a directory that no save has created and that holds user files).
* `C23_negative_step_stops_worker_fails` — Finding: a request to delete a negative step stops the worker without any error: later requests are silently dropped.
* `C23_raise_drops_later_requests_fails` — Finding: a deletion that raises stops the worker, so later requests are never carried out, although `close` reports only the first failure.
* `C24_crash_leaves_torn_step_fails` — Finding: with atomic renames a crash during a permanent deletion leaves a step that is still reported as finished although files are missing.
* `C24_full_path_fails` — Finding: with `todelete_full_path` outside Google Cloud Storage no step can be deleted.
* `C24_leftover_shadows_step_fails` — Finding: if an unfinished save to the same name was left over (an older attempt in the same directory), `delete` removes the left-over and reports success, but the step itself stays visible.
* `C24_trash_collision_fails` — Finding: with `todelete_subdir`, a step that has been deleted, saved again and is deleted again stays where it is, and the deletion raises (the directory in the trash is not empty).
* `C25_cancel_swallows_error_fails` — Finding: a save that has already failed when `cancel` is called loses its error: the next wait returns normally, although the save was neither committed nor reported.
* `C25_cancelled_error_dropped_fails` — Finding: a `CancelledError` raised by a commit operation although nobody called `cancel` is dropped: the wait returns normally, but the save was neither committed nor reported.
* `C26_error_after_commit_fails` — Finding: an error in the background does not mean that the checkpoint is not there: here it has been made visible, and then the completion barrier fails on the other host.
* `C26_post_finalization_runs_before_commit_fails` — Finding: the user's post finalization callback, documented as being called after the save is complete (experimental/v1/_src/context/options.py:105), runs before the checkpoint is made visible. Here it has run, then making the checkpoint visible raised: the save failed and is not visible.
* `C27_cancelled_early_never_signals_fails` — Finding: a future that is cancelled before its body starts ends without setting its signals: futures that wait for them are left waiting until they time out.
* `C27_cancelled_future_still_signals_fails` — Finding: a future that is cancelled while its body runs sets its signals although the body failed, and the bodies that wait for them run: here future 1 writes although the directory was not created.
* `C28_zero_timeout_ignores_completed_fails` — Finding: once the time is up (in particular with `timeout=0`), `result` raises `TimeoutError` even if all futures have long completed successfully.
* `C29_delete_without_slash_keeps_children_fails` — Finding: deleting a key that does not end with `/` leaves the keys below it in place.
* `C29_set_and_deleted_is_missed_fails` — Finding: a get may time out although its key was set in time: if the key is deleted again before the notified getter gets the lock, the value is missed.
* `C30_request_of_exactly_the_limit_refused_fails` — C30 (boundary): a request of exactly the limit is refused although nothing is in flight; the error message ("Requested more bytes than we reserved space for") says otherwise.
* `C31_first_batch_over_budget_fails` — C31 fails for the first batch: whatever the budget, if the first array lives on worker 0 only, any number of arrays on worker 1 join its batch, however large.
* `C32_raised_over_total_after_surge_fails` — C32 fails right after a surge: with the default gains, the limit is raised although the usage is above the total memory, because the surge reservation is given back at the same time.
* `C32_ratio_above_one_exceeds_max_fails` — The target ratio is not validated: with a ratio above one a minimum above the maximum is accepted, and then every limit returned is above the maximum.
* `C33_as_large_as_possible_fails` — The documentation says the chunk is "otherwise as large as possible"; the greedy choice is not: for a 6 x 5 array and a target of 10 elements it takes 3 x 1, although 2 x 5 divides the shape and fits.
* `C34_stepped_fragment_not_partitioned_fails` — A stepped fragment, as in the documentation's own example `0:4:2`, is not partitioned: the abstract fragment `0:2n:2` (of length `n ≥ 2`) chunked to length 1 gives chunks outside the fragment.
* `C35_misplaced_fragment_accepted_fails` — A fragment that is not within the array is not noticed when its own shape is that of the array: its value is returned as the array although it covers no position before `k`.
* `C37_local_checkpoint_omits_parts_fails` — Without a replica id a process writes only the shards whose replica id is that of its first shard: another part it holds with a different replica id only is silently left out.
* `C37_too_large_replica_id_writes_nothing_fails` — A replica id at or above the number of replicas is accepted silently, and no process writes anything: the checkpoint has no data for the array.
* `C38_not_maximal_fails` — The array is "partitioned as much as possible" only under the greedy rule: a 18 x 4 array on 16 devices is cut in 2 parts, although 2 x 4 parts divide it and the devices.
* `C38_subset_of_devices_not_partitioned_fails` — With an explicit subset of the devices, the size test uses the number of all devices: an array that could be cut over the chosen `n` devices is replicated instead whenever there are more devices than its size.
* `C39_backward_slice_resolves_to_nothing_fails` — C39 fails for backward slices: on any axis with at least one element, `slice(None, None, -k)` selects some elements and its resolved form selects none.
* `C39_dissolve_backward_fails` — C39 fails for backward slices: `slice(0, -n-1, -1)` selects the first element, its dissolved form the whole axis, backwards.
* `C39_minus_one_resolves_to_nothing_fails` — C39 fails for the integer `-1`: it selects the last element, its resolved form selects nothing.
* `C39_slice_shape_backward_fails` — C39 fails for backward slices: the length computed for `slice(n, 0, -1)`, which selects `n` positions, is `n + 2`.
* `C39_slice_shape_negative_fails` — C39 fails when the bounds are out of order: the slice selects nothing and the computed length is negative.
* `C39_too_long_index_truncated_fails` — An index longer than the shape is an error for the array, but `resolve_slice` silently drops the extra elements.
* `C40_leaf_with_separator_fails` — C40 (finding: a bare leaf does not survive a separator): it comes back as the value of the key `''`.
* `C40_long_separator_fails` — C40 (finding: a separator of several characters can cut a key in the wrong place): with the separator `__`, the value under `a_` then `b` comes back under `a` then `_b`, although no key contains the separator.
* `C40_separator_in_key_fails` — C40 (finding: the separator in a key): with a one-character separator, a key that contains it is split.
* `C41_empty_first_element_fails` — C41 (finding: an empty first element): without kept empty nodes, a list whose first element has no leaf and whose second has one cannot be serialized at all: an assertion fails.
* `C42_dot_collision_fails` — C42 (finding: a dot in a key): for all keys `a` and `b`, the value under `a` then `b` and the value under the key `a.b` have the same parameter name.
* `C43_custom_extra_child_fails` — C43 (finding: a child that only the right custom node has is not reported): if the left node has no children and the right one, of the same custom type, has some, the result is a node without any `Diff`.
* `C44_named_by_position_fails` — C44 (a finding): a named tuple is matched by position, not by name, with a named tuple of another class: with fields `x, y` in the template and `y, x` in the tree, the value of `y` is returned as `x`.
* `C44_named_none_fails` — C44 (a finding): `None` stands for an empty mapping, but a named tuple of the template, if it has fields, is not replaced by placeholders for `None`, although trimming is not strict.
* `C45_custom_children_lost_fails` — The property fails for other nodes: what only the earlier of two custom nodes with different children has is lost.
* `C47_fallback_after_rule_fails` — The property fails in one case: a rule that asks for the new tree's value, although it is the last matching one, leaves the value an earlier matching rule gave.
* `C48_default_snapshot_fails` — By default a checkpoint can be yielded without a snapshot, although the documentation says that all are snapshotted.
* `C48_large_step_fails` — A step that does not fit into 32 bits raises.
* `C48_timeout_not_restarted_fails` — After `timeout_fn` refused, the timeout does not start again, although the documentation says so: the next poll, one second later, asks it again and can end the iteration.
* `C49_broken_write_fails` — A write that breaks (or a crash in the middle of it) loses the fields that were there: the next update starts from nothing.
* `C49_mutation_fails` — A dictionary that the caller changes after `write` has returned: what is written is the changed one.
* `C49_read_during_write_fails` — A reader can meet the file in the middle of a write, and is told that there is no metadata, although there was before and will be after.
* `C50_new_statistic_fails` — A performance metric that this version does not know makes the file unreadable, whatever else is in it.
* `C50_statistics_fails` — The step number kept in the statistics does not survive.
* `C50_two_unknown_fails` — Two unknown keys next to the empty custom metadata that `serialize` itself writes make the file unreadable: the first one is put into the very dictionary that is looked at for the second one.
* `C50_unknown_with_custom_fails` — One unknown key next to custom metadata of the user makes the file unreadable.
* `C51_equal_keypaths_fails` — C51 (failure): of the entries with the same key path (as for the keys `1` and `"1"` of a dictionary) only the last is read back.
* `C51_mixed_keys_fails` — C51 (failure): a sequence key and a dictionary key at the same place cannot be sorted, so the nested tree cannot be built.
* `C51_named_tuple_fails` — C51 (failure): an empty named tuple comes back as `None`.
* `C51_short_save_args_fails` — C51 (failure): if the tree of save arguments has fewer leaves, the entries of the remaining leaves are left out silently.
* `C52_empty_custom_fails` — C52 (failure): empty custom metadata merged with none is lost.
* `C53_custom_class_fails` — C53 (the other container classes): a registered class comes back as a dictionary.
* `C53_empty_fails` — C53 (failure): an empty tuple, or any empty container inside a tuple, is refused, although an empty dictionary or list inside dictionaries and lists is accepted.
* `C53_equal_keys_fails` — C53 (failure): of two keys that are the same as strings, one entry is lost.
* `C53_integer_key_fails` — C53 (failure): integer keys come back as strings.
* `C53_local_class_fails` — C53 (failure): a named tuple whose class cannot be created again from its names is written but cannot be read. A class defined inside a function has `<locals>` in its qualified name, so it is such a class.
* `C54_empty_types_fails` — C54 fails for an empty tuple of axis types, which is read as "no axis types".
* `C54_several_axes_fails` — C54 fails for a dimension divided over several axes: the tuple comes back as a list, and a tuple is not equal to a list.
* `C54_unconstrained_fails` — A partition spec with `UNCONSTRAINED` cannot be written at all.
* `C55_function_fails` — C55 fails for a function that does not accept the type itself: the registration succeeds and the type has no handler.
* `C55_override_fails` — C55 fails with `override`: overriding the handler of a subclass replaces the entry of its base class, which then has none — for whatever classes, handlers and type strings.
* `C55_shared_string_fails` — C55 fails with `override`: handlers made with one type string for two types can be in the registry together, and the type string leads to the last one.
* `C56_default_registry_fails` — C56 fails for handlers with one args class for saving and restoring: the registry of default handlers cannot be made with them.
* `C56_finalize_fails` — C56 fails when the registry has two handlers for an item: an item saved with the second is finalized with the first.
* `C56_general_fails` — C56 fails likewise for a registry with handlers for args alone: the handlers of the args for saving and restoring are two, and after a restoration the save is finalized with the handler that restored.
* `C56_recorded_fails` — C56 fails when the registry has two handlers for an item: an item saved with the first is recorded with the class of the second, although it is finalized with the first.
* `C56_second_args_fails` — C56 fails when a handler class has more than one args class for saving: with the second, an item can be saved once, and then never again.
* `C57_integer_keys_fails` — C57 (failure): integer keys become strings.
* `C57_twice_fails` — C57 (failure): the same structure cannot be used twice: whatever the values, the second unflattening raises.
* `C59_deleted_fails` — C59 (finding): by default (`ignore_snapshot_errors=True`) a checkpoint that the trainer deletes while it is being copied is handed out with an incomplete snapshot, or none, as if nothing had happened.
* `C59_deleted_strict_fails` — C59 (finding): even with errors enabled the loss is unnoticed when the next thing to be copied is a directory, because `os.walk` skips directories it cannot list.
* `C59_incomplete_fails` — C59 (finding): the copy is not atomic, and the existence of the snapshot directory is taken for its completeness. Wherever the process dies in the middle of the copy, the next attempt reports success and hands out a snapshot that lacks something.
* `C59_release_composite_fails` — C59 (finding): the snapshot is named after the directory that was found, but the one released is named by the format used for writing. With a composite name format a step found under another format's name keeps its snapshot for ever: the release reports success (errors are ignored by default) and removes nothing.
* `C59_release_interrupted_fails` — C59 (finding): an interrupted release leaves a damaged snapshot that is handed out as complete the next time.
* `C59_replace_missing_fails` — C59 (finding): a replacement whose snapshot does not exist fails only after the source has been moved away: the checkpoint is no longer under its name.
* `C59_replace_window_fails` — C59 (finding): a crash between the two renames leaves no checkpoint under the name of the source, and a later replacement fails at its first rename; nothing recovers the version under the recovery name.
* `C59_stale_fails` — C59 (finding): a snapshot that is already there is handed out whatever it holds, for instance the version of a step that has since been deleted and saved again.
* `C60_ext_fails` — C60 (finding): the object hook looks at every object of the text. An `ext_metadata` with a field `array_metadata` is written without complaint, and then cannot be read, or is read as something else; and the next write of the process fails, since what was read cannot be written.
* `C60_ext_ignored_fails` — C60 (finding): other fields of `ext_metadata` are not compared.
* `C60_missing_process_fails` — C60 (finding): with at least two files, processes that have written nothing are not missed, however many are running.
* `C60_nothing_written_fails` — C60 (finding): one process without a single record in its file is rejected, all of them without files are accepted.
* `C60_overlap_fails` — C60 (finding): the file is read and then overwritten, without a lock: of two writes of one process that overlap, the one that finishes first is lost. Both report success.
* `C60_repeated_fails` — C60 (finding): of several records of the same name only the last is compared: here the write shapes differ.
* `C60_torn_fails` — C60 (finding): a write is not atomic; after one that stopped half way, every read and every further write of that process raises.
* `C61_format_mixed_fails` — C61 (finding): saves with different `use_zarr3` can be merged; the one flag of the checkpoint is that of the last.
* `C61_metadata_lost_fails` — C61 (finding): an interruption of `finalize` while it rewrites the merged `_METADATA` (the old file is unlinked before the new one is written) followed by a second `finalize`, which succeeds, publishes a checkpoint whose metadata has lost the leaves of the first save: the checkpoint cannot be restored although every save and the last `finalize` reported success.
* `C61_overlap_fails` — C61 (finding): two asynchronous partial saves to one path use the same temporary directory, and nothing makes the second wait for the first: starting it while the first is being written removes what the first has written, and the first reports success without anything stored.
* `C61_replacement_missed_fails` — C61 (finding): replacements are looked for in the pending directories only. After an interrupted `finalize` that had merged the first save, a save of the same leaf is accepted, and the published checkpoint has the second value.
* `C61_stuck_fails` — C61 (finding): an interruption of `finalize` between the merge of `_METADATA` of a pending directory and that of its array metadata makes every later `finalize` fail with `FileExistsError`: without `_METADATA` the rest of the directory is no longer recognised as that of a pytree, and its array metadata files collide with those merged before.
* `C61_unmerged_fails` — C61 (finding): if `finalize` is interrupted after merging the last pending directory and before merging the databases, then for every sequence of saves the second `finalize` finds nothing pending, skips the databases, and publishes a checkpoint in which no leaf can be read.
* `C62_abandoned_fails` — C62 (finding): an abandoned reservation is never given up. Whatever happens after Reserve, short of a Finalize or a Delete of that asset, and however long its write lease has expired, the asset stays in ACTIVE_WRITE and every Reserve of the path returns it.
* `C62_other_zone_fails` — C62 (finding): a client whose closest backend is not the one the path was reserved on gets the asset but no tier path to write to (an empty identifier, on which the client library raises), and the path stays unusable from there until the asset is deleted.
* `C62_stored_rereserved_fails` — C62 (finding): Reserve at the path of a finalized checkpoint succeeds and names the READY tier path of that checkpoint as the place to write: the call does not distinguish a new reservation from a checkpoint that is already stored.
* `C63_queue_blocked_fails` — C63 (finding): one job can block a backend's queue for ever.
* `C64_copy_during_delete_fails` — C64 (finding): the same race lets a checkpoint be deleted while a copy of it is running.
* `C64_late_poll_fails` — C64 (finding): a worker that was suspended past its lease revives it: the ownership test does not look at the lease, so that after another job has been claimed in the meantime the backend runs more jobs than the limit allows.
* `C64_two_per_asset_fails` — C64 (finding): claims on different backends are not serialized, and both look for running jobs on the asset before either commits: two copies of one checkpoint run at once, with timely workers.
* `C65_copy_lost_fails` — C65 (finding): a server that stops between the two transactions of Finalize leaves the checkpoint stored on the first tier only: no copy has been queued, and since the asset is no longer in ACTIVE_WRITE a retried Finalize is refused in every later state, so nothing but a Prefetch ever queues a copy.
* `C66_failed_delete_stuck_fails` — C66 (finding): a deletion that fails once can never be completed. The asset is marked DELETED before the data is removed; if the removal then fails, the job is FAILED, and in every later history every Delete of the asset is refused as not found and its tier path never becomes DELETED: the data that was not removed stays.
* `C66_finalize_resurrects_fails` — C66 (finding): a Finalize that has read the asset before a deletion and writes after it brings the asset back: its session still holds the old row, so the test for ACTIVE_WRITE passes, and an asset whose data has been removed is STORED with a READY tier path.
* `C66_late_copy_fails` — C66 (finding): a copy whose lease ended but whose worker goes on polling completes after the asset has been deleted: the DELETED asset has a READY tier path.
* `C66_queued_copy_fails` — C66 (finding): a copy that was queued when its asset was deleted is still carried out: a worker claims it and the DELETED tier path is IN_PROGRESS again.
* `C66_stale_begin_fails` — C66 (finding): the step that marks an asset as being deleted does not test whether the worker still owns the job: a worker that lost its lease moves the tier paths of a completely deleted asset back to DELETE_IN_PROCESS, where they stay for ever.
* `C67_completion_shortens_fails` — C67 (finding): the completion of a copy can take away what keep-alives have been promised. On a Lustre backend it sets a fixed lifetime counted from the completion, also when the lease that the client has been given by its keep-alives ends later (here with a keep-alive period longer than that lifetime).
* `C67_prefetch_during_delete_fails` — C67 (finding): the test for a pending deletion and the insert of a Prefetch are not one transaction: a Delete between the two is overtaken, and a copy is queued for an asset whose deletion is pending.
* `C68_foreign_address_fails` — C68 (finding): a path that is an address in a different bucket is stored below the backend's prefix, scheme and all; the client writes objects under a name that contains the scheme, but the removal drops every occurrence of it, so it looks for objects under another name, removes nothing and reports success.
* `C68_nested_asset_fails` — C68 (finding): an asset may be reserved inside another one: a reserved path that begins with the backend's prefix is taken as it is, also if it leads into the storage path of another asset, and removing that asset removes the data of both.
* `C68_prefix_other_region_fails` — C68 (finding): the choice by initial segment takes a backend in another region: a client in zone europe-west10-a is sent to a backend in europe-west1 even if there is one in europe-west10.
* `C68_zone_only_refused_fails` — C68 (finding): the documented choice by the zone's name "when no region is specified" never happens in the service: a region that a request leaves out arrives as the empty string, not as `None`. For every list of backends with non-empty regions, a request with only a zone that no backend is in is refused, although a backend may be in the zone's region.
* `C69_concurrent_init_fails` — C69 (finding): two servers that start on an empty database at the same time both fill the table, which nothing forbids since a session only checks its own rows; from then on no server with that configuration starts, as verification fails and a table with rows is never changed.
* `C69_repeated_entry_fails` — C69 (finding): verification does not notice a row that is not configured if the configuration names another backend twice: it compares the numbers and looks up every entry, but never asks for the entry of a row.
* `C70_failed_prefetch_fails` — C70 (finding): a `prefetch` that fails leaves its asset registered: every later `reserve` and `prefetch` is refused until the caller releases an asset that they were never given.
* `C70_finalize_hangs_fails` — C70 (finding): a `finalize` while a `prefetch` waits for its copy stops the keep-alive but leaves the future alone: nothing that the server can answer makes the `prefetch` return.
* `C70_finalize_other_fails` — C70 (finding): `finalize` does not look at which asset it is given: finalizing another asset, with whatever result, ends the keep-alive of the one being written.
* `C70_orphan_fails` — C70 (finding): in the same way two concurrent `reserve` calls both succeed; the client forgets the first asset, whose keep-alive is then stopped by no number of calls of `finalize` and `release`.
* `C70_release_path_fails` — C70 (finding): `release_path` releases whatever asset is active, whatever path it is given.
* `C70_wrong_path_fails` — C70 (finding): the test for an active operation and its registration are separated by the RPC: of two concurrent `prefetch` calls both pass it, the second replaces the first one's future, and the answer to the first one's keep-alive resolves the second one's: the call for tier path 6 returns the path of tier path 5, and the call for 5 waits for ever (no further keep-alive can resolve its future).
* `C71_empty_file_lost_fails` — C71 (finding): an empty file of the peer is never in the restore directory after a successful fetch: a size of 0 means "missing" on the wire.
* `C71_empty_message_fails` — C71 (finding): a message whose value is false in Python (an empty manifest, an empty dictionary, `None`) is received as an error, whatever its operation: the receiver tests for a missing payload before it tests for an announced length of 0.
* `C71_order_matters_fails` — C71 (finding): a fetch in which every download did what it should can be reported as a failure, depending on the order in which the downloads completed: the results are compared with the manifest in order of completion. Here the empty file completes first although it is second in the manifest.
* `C72_complete_missed_fails` — C72 (finding): a step of which the hosts hold every shard may not be found: the host that stores step 1 of process 0 announces it as process 1's, because its latest step was stored by process 1.
* `C72_layout_fails` — C72 (finding): if two replicas assign their positions differently, a process can be given the data of other positions: relative ids only count the processes in the order in which they appear. Here the devices of process 1 are at positions 2 and 3, those of process 3 at positions 1 and 2.
* `C72_spanning_fails` — C72 (finding): a process in two replicas keeps only the last of its relative ids. Process 1 has positions 1 (replica 0) and 0 (replica 1), and is given the data of process 0, which has position 0 only, as if that were its own.
* `C72_wrong_owner_fails` — C72 (finding): a host attributes every step to the process that stored its latest one. Here host 0 was process 0 at step 1 and process 1 at step 2, and host 1 was process 1, then 0: at step 1 both shards exist and step 1 is announced as complete, but each process is sent to the host that has the other one's data, and the request is refused.
* `C73_failed_save_fails` — C73 (finding): the latest step is cached when a save starts. If the background write of the step then fails, `restore(None)` fails although older complete steps can be restored, and steps up to the failed one are not saved again.
* `C73_outside_fails` — C73 (finding): if processes do not belong to the mesh, their local steps are listed, but cannot be restored.
* `C73_spanning_fails` — C73 (finding): if the devices of a process lie in more than one replica, no local step is ever complete, although every process has it: the number of processes per replica is computed as 0.
* `C74_mixed_slices_fails` — C74 (finding): a slice that is complete by the processes' listings can miss a position when its hosts come from two old slices.
* `C74_plain_fails` — C74 (finding): with the flag for distributed ids off (it is on by default) the restore mesh is the old list of ids: if two hosts have exchanged their device ids, positions move to other hardware.
* `C74_swapped_slices_fails` — C74 (finding): the slice that reads is chosen by its number in the new mesh, but the devices it reads for are those of the slice with that number in the old one. Here two slices have exchanged their numbers: the slice whose hosts hold the complete step reads no position at all.
* `C75_dtype_fails` — C75 (finding): arrays of booleans and of narrow integers come out of a broadcast with another dtype.
* `C75_limits_differ_fails` — C75 (finding): the memory limit is taken from each host's own device memory, so hosts with different memories group the same leaves differently, and their collective operations do not match.
* `C75_negative_zero_fails` — C75 (finding): zero is not neutral for floating-point addition: a restored `-0.0` becomes `0.0`.
* `C76_disagree_fails` — C76 (finding): without persistent storage the hosts do not agree: one raises while the other one goes on with the restored state.
* `C76_fallback_missing_fails` — C76 (finding): the step to restore is chosen among the hosts, but if one transfer fails the same step is demanded of persistent storage: `restore()` fails on all hosts although persistent storage has a checkpoint.
* `C76_local_owner_fails` — C76 (finding): a host whose own disk has the step, but stored when the host was another process, fails although a peer has the process's shard: peers are not asked for a step that is on the disk.
* `C76_newer_ignored_fails` — C76 (finding): `restore()` prefers a step of the hosts to a later one in persistent storage.
* `C76_other_restore_fails` — C76 (finding): restoring any other step from a peer first has the same effect.
* `C76_second_restore_fails` — C76 (finding): the step that was fetched in the background can be restored only once: restoring removes the directory it was fetched to, and a second restore believes it to be still there.
* `C79_any_short_span_fails` — C79 (finding): a tensor whose span in the file is shorter than its shape says is not refused, whatever the length of the span: the end of its buffer is uninitialised memory (here 0).
* `C79_short_span_fails` — C79 (finding): the header's offsets are not compared with the shape. A tensor whose offsets span fewer bytes than its shape is opened and loaded in full without error, and every byte past the end offset is uninitialised memory (here 0), not the bytes in the file.
* `C80_floor_over_read_fails` — C80 (finding): with `max_over_read_ratio=1.0`, documented as no over-read, two single bytes a page apart are read with the whole page between them.
* `C80_many_reads_fails` — C80 (finding): the automatic ratio does not bound the number of reads. For every `n` there is a plan of disjoint runs - `n + 1` single bytes ten thousand bytes apart, then one long run - for which the automatic ratio is used and more than `n` separate reads remain.
* `C81_named_overridden_fails` — C81 (finding): the handler registered for a name is not always used for loading it. With a template it does not accept, another handler is used, although registering for a name is documented to be decisive even for a handler that is not capable.
* `C81_nested_local_fails` — C81 (finding): a local registry cannot be made from a registry that already contains the global one: for every non-empty global registry, adding its own local copy to it is refused.
* `C81_secondary_steals_fails` — C81 (finding): a class registered later that lists another registered class's type string among its secondary ones takes over that class's checkpoints, although the class that saved them is registered.
* `C81_stateful_named_fails` — C81 (finding): a value that saves itself and whose name has another handler is saved by one handler and, without a template, loaded by the other.
* `C81_unconstructible_fails` — C81 (finding): one registered class that cannot be constructed without arguments makes saving fail for every value and every name, also those with a handler of their own; registering it succeeds.
* `C82_empty_directory_fails` — C82 (finding): every directory without subdirectories, without metadata and not inside a checkpoint is reported to be an Orbax checkpoint, and loading from it succeeds with nothing, although loading an empty checkpoint is documented to raise an error.
* `C82_one_needs_template_fails` — C82 (finding): one checkpointable whose handler needs a template makes loading everything fail, also for the others. (`None` is documented to be a valid template for every checkpointable.)
* `C82_reported_but_refused_fails` — C82 (finding): a directory that has the indicator file but has lost its metadata is reported to be an Orbax checkpoint, and every attempt to load from it is refused.
* `C83_lightweight_fails` — C83 (finding): a checkpointer constructed with `lightweight_initialize` over a directory with checkpoints can list nothing, load nothing and save nothing (except with `overwrite`): every call raises, because the placeholder for the unread times has no time stamp.
* `C83_load_in_flight_fails` — C83 (finding): while a save is being written, its step is already `latest`: `load()` without a step fails, although older complete checkpoints exist.
* `C83_overwrite_declined_fails` — C83 (finding): `save(step, overwrite=True)` without `force` deletes the existing checkpoint of the step before it asks whether to save. If a later step exists, it always deletes the checkpoint, saves nothing, and returns `False`.
* `C83_overwrite_in_flight_fails` — C83 (finding): overwriting a step while it is being saved loses both: the temporary directory of the first save is removed, so that it fails, and its failure is raised in the second save, which then does not happen.
* `C83_replaced_checkpointer_fails` — C83 (finding): every save call replaces the checkpointer object that the finalize thread of the previous save will wait for, even if the call is then skipped by the policy.
* `C84_fuse_clobbers_fails` — C84 (finding): a parameter that already has the name of the fused parameter is silently replaced.
* `C84_fuse_same_part_fails` — C84 (finding): two parameters that are the same part of the same fused parameter: only the last is fused, the other stays behind, and nothing is reported. (A name that contains unique parts twice gives this: with the parts `a` and `b`, `x.a.a` and `x.a.b` are both the part `a` of `x.f.f`.)
* `C84_rename_collision_fails` — C84 (finding): when two parameters get the same name, the later one silently replaces the earlier.
* `C84_repeat_twice_fails` — C84 (finding): a key named twice is repeated twice.
* `C84_stack_clobbers_fails` — C84 (finding): an unmatched parameter whose name is the base key of a stack is silently replaced by the stack.
* `C84_stack_inplace_fails` — C84 (finding): with `inplace`, matched parameters are removed from the dictionary of the caller before the stacks are checked: when some stack then cannot be made, the call raises and every matched parameter is gone.
* `C84_stack_negative_axis_fails` — C84 (finding): with a filler and the last axis given as -1, vectors cannot be stacked unless their length happens to be the count: the axis is inserted into the shape one place further left than it is filled. Without a filler the same call succeeds.
* `C84_stack_skips_fails` — C84 (finding): with a filler, an item whose index is not below the expected count is dropped, as long as there are not more items than that: the call succeeds, and its result is the same whatever the item was.
* `C85_empty_item_fails` — C85 (finding: an empty container hides a value): where the item has an empty container, restoring succeeds and gives that empty container, even if a value was saved there.
* `C85_empty_saved_fails` — C85 (finding: an array is restored as an empty container): where an empty dictionary, list or tuple was saved, restoring an item that has a value there succeeds and gives the empty container.
* `C85_equal_names_fails` — C85 (finding: values can be lost): if the names of two parameters, joined by dots, are the same, then two different values of one type are not both restored, whatever the order in which they were written.
* `C85_partial_nothing_fails` — C85 (finding: nothing cannot be restored): partial restore of an empty dictionary fails, for every checkpoint of a container with something in it.
* `C85_partial_placeholder_fails` — C85 (finding: partial restore does not know placeholders): a placeholder of the item is restored if the checkpoint has a value there.
* `C85_placeholder_list_fails` — C85 (finding: a placeholder in a longer list): a placeholder in a list that was saved shorter makes restoring fail.
* `C85_placeholder_subtree_fails` — C85 (finding: a placeholder in a container that was not saved): if the item has a container with something in it where the checkpoint has nothing, restoring fails, even if there are only placeholders in it.
* `C86_empty_item_fails` — C86 (finding): an empty container of the item that a transform matches hides the leaf that needs the same saved value: with the item `{'a': {}, 'b': 0}` and a transform taking `x` for every name, `b` becomes a metadata object, not the saved value of `x`.
* `C86_empty_value_fails` — C86 (finding): where the checkpoint has an empty container (or `None`) and the item a value, the result has the metadata object of the checkpoint, not the empty container.
* `C86_shared_value_fails` — C86 (finding): a value of the checkpoint is read once, so two leaves of the item that come from the same value get the same result, even if their restore arguments differ: one of them is not what its arguments ask for.
* `C86_slash_fails` — C86 (finding): a saved value is found by its joined name, but only loaded if its path is the same: with `{'a/b': ...}` as the item and `{'a': {'b': ...}}` saved, the result has a metadata object instead of the saved value.
* `C86_undeclared_inputs_fails` — C86 (finding): if the first transform has a function of several values without declared inputs, restoring any checkpoint that holds something fails, even if the transform matches no leaf of the item.
* `C87_dataset_skipped_fails` — C87 (finding): local steps were lost, the persistent directory has some, all before `s`. With the default save decisions the next `save` of a step `s` off the interval returns `True`, because there are no local steps, but the dataset is not saved, because there are datasets: a restore of the step with its dataset fails.
* `C87_delete_fails` — C87 (finding): a step that was saved without a dataset can be listed and restored, but `delete` raises and keeps it.
* `C87_mesh_axes_fails` — C87 (finding): with arguments that give mesh and axes instead of a sharding, the array comes back on other devices than those of the mesh.
* `C87_no_directory_fails` — C87 (finding): without a persistent directory `save` accepts a dataset and drops it (`C87_no_directory_nonvacuous`), and no request for a dataset is ever served.
* `C87_stale_dataset_fails` — C87 (finding): step `s` is saved, the local steps are lost, the run repeats and saves step `s` again: `save` returns `True`, and restoring gives the new state with the old dataset.
* `C87_time_policy_fails` — C87 (finding): a policy on time (`EveryNSeconds`) deletes different steps in the two stores, because each takes its own time: the step is listed, its dataset is gone.
* `C87_tree_dataset_fails` — C87 (finding): a dataset requested with `PyTreeRestore` is looked for in local storage, where it never is: it can be saved, but in no history restored that way.
* `C88_reserved_cast_fails` — C88 (finding): the item size used is that of the type the array is converted to. When a non-empty region is restored into a type with smaller items than the stored one, fewer bytes are reserved than its chunks, as stored, occupy.
* `C88_reserved_empty_fails` — C88 (finding): an empty region that does not begin at the edge of a chunk reserves bytes all the same.
* `C88_sharding_precedence_fails` — C88 (finding): the documentation of the arguments says that the sharding takes precedence over the mesh and its axes; whenever all three are given, the sharding has no effect.
* `C89_empty_fails` — C89 (finding): an empty array is accepted by the check of the arguments, but cannot be saved.
* `C89_metadata_fails` — C89 (finding): metadata of the checkpoint is refused as a target, though the documentation allows it.
* `C89_scalar_fails` — C89 (finding): a tree with a NumPy scalar other than `np.float64` is saved, but cannot be its own target.
* `C89_shape_fails` — C89 (finding): the shape of an `np.ndarray` in the target, or of a `jax.ShapeDtypeStruct` without sharding for an array saved from NumPy, is not used, in strict mode either: an array of another shape is restored.
* `C89_struct_fails` — C89 (finding): a `jax.ShapeDtypeStruct` without sharding is restored as a `jax.Array`, with the sharding that was saved, though the documentation promises an `np.ndarray`.
* `C89_truncates_fails` — C89 (finding): a `float` in the checkpoint and an `int` in the target: the value is truncated, without an error.
* `C90_checkpointer_fails` — C90 (finding): the context given to a checkpointer is not used where another context is active, though it is documented to wrap all its calls.
* `C90_container_fails` — C90 (finding): lists, sets and dictionaries in the options of an active context can be changed in place, in the same thread and in the block.
* `C90_other_thread_fails` — C90 (finding): the options of a context that is active in a thread are not frozen for other threads: a new thread can set any option of any context.
* `C91_append_fails` — C91 (finding): `append` does not take the lock. An element appended while another thread's `delete_if` has looked at the list and has not stored its result is lost, though both calls return normally and the element is not to be deleted.
* `C91_append_set_fails` — C91 (finding): also an `append` whose list object was replaced by `set` between its two steps is lost.
* `C91_timeout_fails` — C91 (finding): if a thread runs into the timeout just before the owner of the lock leaves its block, the owner does not release the lock. From then on every `set`, `delete_if`, `latest` and loop of any other thread runs into the timeout, for ever: in no continuation does one take effect.
* `C92_slash_fails` — C92 (finding): of two leaves of which one continues the name of the other with a slash, such as `a` and `a/b`, one is not restored, in whichever order they are written: the save fails, or the second write replaces the first.
* `C92_tilde_fails` — C92 (finding): a leaf whose name has a tilde that is not followed by `0` or `1`, as in the names of Haiku modules, makes the save of all string leaves fail.
* `C93_big_endian_fails` — C93 (finding): an array stored with the most significant byte first is read back without an error and with the bytes of each element in the wrong order: the name of its dtype does not say how it is stored.
* `C93_int_key_fails` — C93 (finding): a tree with an integer key in a dictionary is written without an error but cannot be read back.
* `C93_large_in_list_fails` — C93 (finding): an array above the limit inside a list or a tuple cannot be written, although the same array in a dictionary can: such arrays are not cut into chunks.
* `C93_reserved_key_fails` — C93 (finding): a dictionary of the user with the reserved key is written without an error but is not read back.
* `C94_objects_fails` — C94 (finding): a leaf that is not an array is kept by reference: if the user changes it after the save, the load shows the new contents.
* `C94_reset_fails` — C94 (finding): a load that has read a snapshot and resets it puts that one back, whatever newer snapshot the worker has kept meanwhile.
* `C94_worker_fails` — C94 (finding): once the worker has ended with an exception that is not a runtime error, no snapshot is ever kept again, although saving goes on without an error, and `join` never returns once another state has been saved.
* `C95_numpy_numbers_fails` — C95 (finding): NumPy numbers other than `np.float64`, which the documentation says are registered, have no handler in the standard registry.
* `C95_type_string_fails` — C95 (finding): registering a class of the user's with the handler for JAX arrays, without type strings of its own, changes the type string that is written for JAX arrays.
* `C96_array_fails` — C96 (finding): a JAX function that returns one array cannot be validated unless the array has one row: its rows are taken for its outputs.
* `C96_elements_fails` — C96 (finding): an output that is not floating-point counts as different only when it differs at every position: if one element agrees, the report says Pass whatever the others are.
* `C96_empty_fails` — C96 (finding): an output that is not floating-point and has no elements counts as different from itself: two models with the same outputs do not pass.
* `C96_nan_fails` — C96 (finding): outputs with a NaN are never close, not even to themselves.
* `C96_shape_fails` — C96 (finding): the shapes of floating-point outputs are not compared: an output of another shape with the same elements passes.
* `C96_tolerance_fails` — C96 (finding): the two tolerances are exchanged. Whenever they are different there are outputs for which the report says Pass although they are not within the tolerances, or Fail although they are.
* `C97_converter_fails` — C97 (finding): with converter options the model is saved in a temporary directory that is removed: nothing is at the path.
* `C97_orbax_model_fails` — C97 (finding): saving an Orbax Model writes nothing and does not say so.
* `C97_partial_update_fails` — C97 (finding): an update in which one parameter has another shape raises, but the parameters before it have been replaced: the exported functions compute with a mixture.
* `C97_passthrough_fails` — C97 (finding): with `preprocess_output_passthrough_enabled`, a post-processor and no pre-processor, every call fails.
* `C97_preprocess_only_fails` — C97 (finding): when only the pre-processors are exported, every signature runs the pre-processor of the last configuration.
* `C97_refused_update_fails` — C97 (finding): an update with another structure raises, but the JAX functions use the refused parameters from then on, while the exported functions keep the old ones.
* `C98_documented_order_fails` — C98 (finding): the documentation says that parameters with default values should be ordered before the others; a signature ordered so, with both kinds, is never accepted.
* `C98_primary_default_fails` — C98 (finding): a primary tensor whose default value has one row is not tiled: when it is omitted, every batch of another size is refused.
* `C99_empty_fails` — C99 (finding): an empty map is saved and cannot be loaded.
* `C99_interrupted_fails` — C99 (finding): a save interrupted between two functions leaves a directory that is loaded without an error, with some functions missing; and the save cannot be repeated.
* `C99_relative_fails` — C99 (finding): with a relative path nothing is ever saved: the directory is joined twice, and `dir/dir` does not exist. The empty directory is left.
* `C99_slash_fails` — C99 (finding): a method key with a slash cannot be saved.

## Modelled source, by model file

The line ranges are those cited in the comments of the definitions.

* `Verif/Arrays/ChunkShape.lean`: `subchunking.py` 43-217, 43-48, 51-217, 95-104, 106-112, 114, 121-123, 122-123, 125-217, 126, 160-179, 164-168, 171-179, 176, 183-199, 187-193, 201
* `Verif/Arrays/Fragments.lean`: `fragments.py` 58, 94-475, 95-138, 156-158, 164-166, 171-177, 179-205, 198-200, 207-223, 225-237, 275-277, 352-376, 412-447, 444-446, 449-475, 582-587; `subchunking.py` 220-305, 220-229, 235-296, 280-283, 284-292, 299-305
* `Verif/Arrays/Replicas.lean`: `replica_slices.py` 38-50, 53-80, 77-389, 86-110, 113-134, 136-153, 155-177, 162-167, 180-215, 222-224, 224-243, 246-389, 280-292, 317-340, 319-340, 349-354; `fragments.py` 65-69, 635-651
* `Verif/Arrays/Sharding.lean`: `sharding.py` 38-107, 42-107, 64-69, 71-86
* `Verif/Arrays/Slices.lean`: `numpy_utils.py` 28-36, 39-56, 53-55, 59-78, 80-81, 84-113, 106-109, 110-112, 137-144, 147-149; `types.py` 31
* `Verif/Arrays/Zarr.lean`: `serialization.py` 127-207, 166-173, 187-199, 187-207, 210-455, 214-244, 247-269, 261, 272-335, 344-391, 356-364, 359-364, 366-381, 394-455, 413-417; `tensorstore_utils.py` 377-446, 392-409, 418-446, 504-541, 549-650, 597-613, 615-621; `ocdbt_utils.py` 141-217, 169-205; `jax_array_handlers.py` 803-858, 955-1076, 955-1006, 1034-1076; `jax_array_restore_args.py` 32-83
* `Verif/Async/Commit.lean`: `async_checkpointer.py` 60-168, 88-168, 139-140, 248-265, 438-508, 451-506; `multihost.py` 463-466
* `Verif/Async/Model.lean`: `async_checkpointer.py` 60-173, 185-356, 188-220, 231-265, 248-265, 267-285, 287-298, 300-331, 333-356, 510-660, 562-641
* `Verif/Async/Response.lean`: `thread_utils.py` 32-37, 39-44, 40, 46-52; `types.py` 
* `Verif/Async/Runner.lean`: `asyncio_utils.py` 146-153, 155-159, 159-172, 174-228, 188-212, 219-224, 222, 227
* `Verif/Deleter/Model.lean`: `deleter.py` 383-449, 386-417, 419-430, 423, 432-433, 442, 446-447
* `Verif/Deleter/Parallel.lean`: `deleter.py` 72-173, 92-113, 94-96, 95, 97, 97-99, 104, 112-113, 117-118, 122-127, 123-127, 128-130, 134-136, 137-139, 139, 139-140, 142, 143, 144, 149, 154-165, 158-161, 160-162, 162, 170, 173, 176-181, 213-223, 361-372
* `Verif/Emergency/Broadcast.lean`: `multislice.py` 171-386, 241-289, 304, 338-382, 356-362
* `Verif/Emergency/ChunkDebug.lean`: `local_checkpoint_data_debugging.py` 36-54, 43-53, 43-54, 57-66, 69-86, 73, 77-82, 79, 116-141, 133-140
* `Verif/Emergency/Handoff.lean`: `colocated_controller.py` 95-109, 135-152, 190-193, 209-228, 209-257, 230-257, 270-308, 310-321, 339-363, 347-363, 836-894, 924-934, 936-1021, 984-1021, 1061-1070, 1163-1171, 1173-1179, 1181-1187; `colocated_utils.py` 192-221; `sidecar_worker_checkpoint_manager.py` 312-324
* `Verif/Emergency/Manager.lean`: `checkpoint_manager.py` 65-67, 69-70, 127-148, 150-153, 150-168, 188-200, 377-407, 410-479, 421-435, 457-479; `local.py` 232-236, 259-284; `service.py` 184-234, 341-350
* `Verif/Emergency/Markers.lean`: `initialization.py` 51, 57-81, 109-117, 120-137, 216-240, 359-385, 474-475, 541-606, 609-656, 643-649, 659-749, 681-685, 691-746, 692-694, 709-718, 752-761
* `Verif/Emergency/Mesh.lean`: `multihost.py` 35-51, 47-51, 54-81, 145-168, 147-152, 148, 149-152, 169-178; `checkpoint_manager.py` 915-1025
* `Verif/Emergency/PeerSaves.lean`: `checkpoint_manager.py` 223-273, 252-265, 283-290, 290, 331-336, 338-344, 338-367, 339, 346-367, 347, 1213-1250, 1274-1303, 1290, 1412-1555, 1476, 1544, 1554; `local.py` 232-236; `persistent.py` ; `policies.py` 32-45, 45; `options.py` 22-68, 43-45; `preservation_policy.py` 90-101
* `Verif/Emergency/Peers.lean`: `peer_selector.py` 32-56, 45-53, 58-87, 66-73, 75-81, 83-85, 89-112, 103-107, 104-107, 118-160, 156; `registry.py` 31-36, 40-51; `local.py` 205-230; `utils.py` 40-60; `protocol.py` 39-61; `checkpoint_manager.py` 90-109
* `Verif/Emergency/Ranks.lean`: `initialization.py` 140-162, 165-188, 546-601, 583-590; `pathways_topology.py` 32-44, 47-80, 112-144, 190-229, 231-245; `pathways.py` 48-59, 68-91, 94-120
* `Verif/Emergency/Replicator.lean`: `replicator_checkpoint_manager.py` ; `process_metadata_checkpoint_handler.py` ; `mesh_consistency.py` 68-86, 89-145, 148-166; `checkpoint_manager.py` 184-210, 1173-1182, 1213-1250, 1274-1303, 1334-1612, 1845, 2001-2017
* `Verif/Emergency/Serve.lean`: `service.py` 236-258
* `Verif/Emergency/SingleReplica.lean`: `jax_array_handlers.py` 1643-1971, 1651-1691, 1694-1744, 1714-1720, 1748-1757, 1857-1872, 1891-1934, 1898-1909, 1911-1917, 1935-1969; `multislice.py` 35-135, 76-82, 85-106, 126-143, 231-289, 263-276, 277-289, 292-307, 389-405
* `Verif/Emergency/Slices.lean`: `path.py` 31-74, 77-124, 100-102, 103-108; `checkpoint_manager.py` 580-586, 642-687, 659-660, 683-686, 689-704, 745-748, 828-842, 852-859, 1209-1230, 1215-1220; `multislice.py` 35-53
* `Verif/Emergency/Wire.lean`: `protocol.py` 28, 31-35, 91-101, 104-133, 136-197, 200-219, 268-347, 309-330; `service.py` 35-69, 184-234, 260-369, 341-350
* `Verif/Export/Config.lean`: `config.py` 58-82, 94-106, 108-116, 118-123, 125-190, 176-181, 212-217, 218-226
* `Verif/Export/DTensor.lean`: `dtensor_utils.py` 196-302, 231-286, 236-284, 241-273, 274-282, 322-390, 392-431
* `Verif/Export/ExportedMap.lean`: `utils.py` 38, 420-483, 420-429, 440-456, 451-455, 452, 459-483, 473-475, 476-479, 479
* `Verif/Export/Manager.lean`: `tensorflow_module.py` 58-66, 91-160, 98-197, 369-390, 419-421, 424-426, 428-462, 455-462; `serving_config.py` 29-157, 174-175, 234-269, 301-362; `tensorflow_export.py` 51-107, 109-112, 124-187, 147-161, 154-155, 165-172; `obm_export.py` 54-65, 67-72; `export_manager.py` 77-90, 118-137, 139-150; `validation_manager.py` 108-113
* `Verif/Export/ManagerSpec.lean`: `serving_config.py` 69-157
* `Verif/Export/Obm.lean`: `jax_module.py` 34-48, 78-228, 203-214, 230-247, 290-300, 373-381; `obm_module.py` 35-75, 81-215, 139-152, 154-162, 170, 207, 217-242, 244-338, 289-303, 305-328, 340-359, 361-410; `utils.py` 560-626, 560-589, 605-620, 622-626; `obm_configs.py` 353-397, 382, 385-387; `constants.py` 20-24, 32, 63
* `Verif/Export/Processor.lean`: `jax_data_processor.py` 30-60, 62-98, 143-263, 170-186, 207-224
* `Verif/Export/Signature.lean`: `utils.py` 41-96, 138-343, 138-154, 141-153, 198-234, 221-224, 222-223, 243-259, 298-315, 299-301, 317-342, 321-326, 328-341, 343
* `Verif/Export/Validate.lean`: `validation_manager.py` 168-209, 241-274; `validation_job.py` 44-50, 47, 47-48, 48, 52, 86-126; `validation_report.py` 33-61, 142-296, 226-227, 251-253, 252, 254-258; `validation_utils.py` 39-44, 46
* `Verif/Export/ValidateSpec.lean`: `validation_report.py` 36-45
* `Verif/Futures/Chained.lean`: `future.py` 195-239, 202-222, 206-213, 222, 230-239
* `Verif/Futures/KV.lean`: `signaling_client.py` 216-338, 235-262, 262, 280-288, 290-300, 302-324, 326-344; `future.py` 36-157, 44-61, 59-61, 63-99, 101-138, 140-157, 148-150, 242-265, 268-289; `synchronization.py` 30-49, 46-48
* `Verif/Futures/Signals.lean`: `future.py` 292-540, 359-386, 369-386, 420-437, 425-437
* `Verif/Futures/SyncValue.lean`: `synchronization.py` 69-135, 72-82, 107-110, 112-121, 116-121; `checkpoint_manager.py` 917-921, 1473, 2099-2111, 2183
* `Verif/Handlers/ArrayArgs.lean`: `jax_array_restore_args.py` 30-88, 62-71, 73-82; `base_pytree_checkpoint_handler.py` 171-230, 171-190, 177; `jax_array_handlers.py` 1037-1088; `serialization.py` 268-308, 403-462; `checkpoint_utils.py` 506-523
* `Verif/Handlers/ArrayWrites.lean`: `jax_array_handlers.py` 65-84, 446-865, 446-485, 552-604, 582-586, 626-735, 642-661, 766-769, 791-798, 800-845, 846-854, 1417-1530, 1424-1530, 1431-1481; `types.py` 43-64, 111-120
* `Verif/Handlers/Batches.lean`: `base_pytree_checkpoint_handler.py` 98-168, 113-152, 117-142, 154-162, 342-369, 793-821, 806-821, 818-821; `async_io_engine.py` 152-240, 152-172, 205-226, 228-240
* `Verif/Handlers/Composite.lean`: `handler_registration.py` 145-156, 148, 158-218, 220-244, 246-262, 277-288; `checkpoint_args.py` 60-200, 65-69, 122-139, 142-174; `composite_checkpoint_handler.py` 87, 205-1058, 205-224, 227-251, 400-445, 446-462, 463-468, 512-532, 534-626, 671-729, 697-711, 767-863, 794-796, 799-843, 852-863, 865-906, 1039-1058, 1042-1058
* `Verif/Handlers/CompositeMap.lean`: `composite.py` 51-65, 56-65, 67-72, 74-75, 77-78, 80-81, 86-90, 92-96, 93-94, 98-101, 99-100, 106-107, 112-113
* `Verif/Handlers/Json.lean`: `json_checkpoint_handler.py` 53, 56-60, 60, 85-92, 97-126, 126; `json_handler.py` 37-39, 38, 89, 91-104, 104, 106-113, 118-130, 126, 132-137, 142-147; `multihost.py` 463-466
* `Verif/Handlers/LeafRegistry.lean`: `registry.py` 44-81, 84-432, 84-108, 156-168, 180-194, 226-339, 288-290, 333-339, 341-365, 367-379, 395-401, 424-432; `compatibility.py` 423-460, 451-452
* `Verif/Handlers/Leaves.lean`: `options_resolution.py` 21-76, 43-76; `_leaf_handler.py` ; `pytree_handler.py` 72-92, 138-189, 160-189, 392-404, 458-469, 471-521, 471-494, 496-521; `compatibility.py` 42-44, 288-419, 320-375; `registry.py` 44-81, 156-169; `type_handlers.py` 60-265, 155-173, 237-245, 247-264; `jax_array_handlers.py` 65-77, 955-1006; `options.py` 320-413, 371-394; `tensorstore_utils.py` 465-484, 486-502, 536-541, 593; `array_leaf_handler.py` 117-131, 171-197, 212-247, 281-320; `numpy_leaf_handler.py` 98-111, 136-153, 225-265; `base_pytree_checkpoint_handler.py` 122-131; `serialization.py` 412-418; `scalar_leaf_handler.py` 108-123, 126-133, 205-251; `string_leaf_handler.py` 165-181
* `Verif/Handlers/Msgpack.lean`: `msgpack_utils.py` 37-234, 37-45, 48-62, 65-70, 73-100, 103-119, 132-142, 145, 146, 149-157, 152, 155, 160-165, 168-180, 183-194, 197-216, 219-234
* `Verif/Handlers/Pathways.lean`: `cloud_pathways_array_handler.py` 30-323, 72-81, 93-159, 114-118, 120-131, 148-152, 161-327, 178-201, 202-217, 219-235, 239-241, 245-303, 259-292, 305-325; `cloud_pathways_helper.py` 30-282, 30-55; `pathways_handler_registry.py` 36-166, 36-74, 105-144; `types.py` 196-204; `pathways_types.py` 32-65
* `Verif/Handlers/Places.lean`: `tensorstore_utils.py` 141-161, 164-277, 204-211, 280-294, 507-542, 552-580, 702-713; `ocdbt_utils.py` 34-138, 93-118, 141-211, 220-228
* `Verif/Handlers/RandomKey.lean`: `random_key_checkpoint_handler.py` 125-132, 147-170, 191-207, 200, 215, 260-272
* `Verif/Handlers/Snapshot.lean`: `type_handlers.py` 167, 243, 347-362; `jax_array_handlers.py` 525-547, 566-590; `json_checkpoint_handler.py` 57-87; `proto_checkpoint_handler.py` 58-87; `json_handler.py` 95-117; `proto_handler.py` 88-112; `async_checkpointer.py` 438-455; `checkpoint_manager.py` 1857-1862, 1978-1998
* `Verif/Handlers/Standard.lean`: `standard_checkpoint_handler.py` 112-145, 127-139, 143-151, 164-209, 200-264, 223-264, 246-256, 305-395, 333-348, 350-385; `checkpoint_utils.py` 39, 446-591, 521-566, 536-551; `type_handlers.py` 60-306, 159-180, 182-228, 261-280, 287-297; `type_handler_registry.py` 161-177; `jax_array_handlers.py` 65-77; `tensorstore_utils.py` 462-484, 486-502, 536-541, 593; `w.py` ; `base_pytree_checkpoint_handler.py` 1037-1060
* `Verif/Handlers/Strings.lean`: `type_handlers.py` 267-382, 289, 306-308, 310-345; `string_leaf_handler.py` 39-163, 73, 76-105, 124-145
* `Verif/Handlers/TypeNames.lean`: `handler_type_registry.py` 31-79, 81-91, 94; `checkpoint_args.py` 65-69, 74-119, 74-123; `composite_checkpoint_handler.py` 807-816; `checkpoint_handler.py` 84-87
* `Verif/Handlers/TypeRegistry.lean`: `type_handler_registry.py` 54-148, 57-69, 63-66, 71-116, 79-80, 82-88, 119-121, 122-126, 128-133, 136-148
* `Verif/Iterator/Model.lean`: `checkpoint_utils.py` 83-442, 97-125, 152-159, 175-176, 178-186, 197-218, 204, 206-216, 220, 313-442, 427-436, 437-439
* `Verif/Manager/Infos.lean`: `checkpoint_info.py` 66-149, 75-85, 87-143, 90, 104, 104-105, 115, 130, 130-134, 142; `threading.py` 28-67, 53-62, 55-62, 64-67
* `Verif/Manager/Items.lean`: `checkpoint_manager.py` 97, 98, 100, 569-575, 578-579, 738-834, 994-1034, 1056-1096, 1079-1088, 1115-1121, 1304-1332, 1412-1537, 1479-1485, 1479-1510, 1481-1485, 1490-1500, 1492, 1497, 1512-1522, 1518-1520, 1627-1638, 1640-1763, 1691-1702, 1722-1734, 1722-1749, 1735-1744, 1765-1789, 1917-1929; `composite_checkpoint_handler.py` 421-470, 534-626, 799-843, 845-863, 905-939; `threading.py` 93-98; `async_checkpointer.py` 517-529
* `Verif/Manager/Metrics.lean`: `checkpoint_manager.py` 1335-1590, 1459, 1474-1477, 1536-1552, 1806-1855, 1857-1862, 2001-2017, 2158-2172; `preservation_policy.py` 311-348
* `Verif/Manager/Model.lean`: `checkpoint_manager.py` 120-163, 212-239, 242-515, 243-249, 881-885, 1173-1182, 1184-1199, 1213-1250, 1274-1303, 1288-1291, 1334-1612, 1471-1612, 1474-1477, 1520-1523, 1542-1612, 1808-1855, 1978-1999, 2001-2017, 2023-2097, 2113-2119, 2158-2192; `checkpoint_info.py` 105-108, 118-133; `deleter.py` 217-224, 225-231, 359-362; `async_checkpointer.py` 231-265, 300-331, 518-529, 607, 643-646; `checkpointer.py` 231-241
* `Verif/Memory/Batches.lean`: `worker_memory_utils.py` 85-236, 85-113, 116-132, 135-142, 152-183, 152-236, 176-183, 185-186, 195-236
* `Verif/Memory/Limits.lean`: `limits.py` 34-110, 37-42, 48-57, 50-54, 56, 56-57, 66-76, 90-97, 100-110, 106
* `Verif/Memory/Regulator.lean`: `memory_regulator.py` 79-107, 112-297, 139-149, 151-176, 178-280, 218-259, 232-238, 282-305; `base_pytree_checkpoint_handler.py` 656-664
* `Verif/Metadata/ArrayStore.lean`: `array_metadata_store.py` 81-131, 84-95, 97-109, 111-120, 122-127, 134-297, 184-222, 205-211, 212-214, 224-229, 252-282, 284-305, 341-557, 344-418, 381-411, 502-556, 559-575; `base_pytree_checkpoint_handler.py` 1122-1173, 1160-1170; `jax_array_handlers.py` 888-925, 903-917; `array_metadata.py` 26, 29-58
* `Verif/Metadata/Repr.lean`: `tree.py` 213
* `Verif/Metadata/Rich.lean`: `value_metadata_entry.py` 33-46, 48-57, 59-78; `empty_values.py` 24, 28, 82-89, 100-110; `tree_rich_types.py` 33-54, 86-143, 89-98, 110-113, 146-179, 182-232, 235-240
* `Verif/Metadata/Sharding.lean`: `sharding.py` 30, 58-62, 74-78, 80-88, 105-111, 127-142, 178-191, 193-203, 205-218, 220-250, 252-262, 293-304, 306-317, 319-323, 328-335, 350-373; `partition_spec.py` 
* `Verif/Metadata/Step.lean`: `step_metadata_serialization.py` 36-83, 85-90, 92-129, 124-128, 131-151, 194-219, 213-217, 222-231; `metadata_serialization_utils.py` 45-64, 82-101, 104-123, 126-147, 150-173, 176-187; `root_metadata_serialization.py` 27-41, 43-48, 50-76; `step_statistics.py` 53-67
* `Verif/Metadata/Store.lean`: `checkpoint.py` 164-417, 175-178, 195-236, 243-247, 244, 287-313, 333-350, 352-427, 377-389, 417-427
* `Verif/Metadata/TreeMeta.lean`: `tree.py` 60-685, 70-81, 84-91, 94-101, 104-109, 111-115, 117-124, 139-145, 147-155, 149-153, 158-164, 166-172, 174-187, 189-201, 203-209, 212-232, 253-306, 366-396, 398-448, 420-426, 450-489, 463-466, 467, 477-484, 486-489, 586-681, 636-642, 648-655, 657-670, 899-1040, 899-957, 906-951, 967-1000, 1002-1027; `empty_values.py` 92-99; `value_metadata_entry.py` 80-97
* `Verif/Metadata/ValueEq.lean`: `value.py` 29-137, 30, 40-41, 43-44, 63, 78-81, 83-90, 117, 128-129, 133, 136-137; `compatibility.py` 46-48, 47, 48
* `Verif/Multihost/Dispatch.lean`: `dispatchers.py` 32-38, 41-66, 48-50, 49-52, 63, 82-88, 83, 189-248, 215-247, 220-224, 229-237, 239-241
* `Verif/Multihost/Transport.lean`: `colocated_transport.py` 36, 56-60, 70-72, 75-103, 106-121, 124-172, 144-158, 160-170, 174-198, 200-211, 214-221, 270-271, 290, 301-313, 316-318, 321-337, 340-356, 343-356, 359-381, 384-423, 426-441, 444-463, 447-461, 450-454, 466-482, 480, 505-515; `sharding.py` 90-113, 115-142, 193-203, 205-218, 287-291, 293-305
* `Verif/NameFormat/Model.lean`: `step.py` 79-91, 222-224, 227-239, 312-343, 347-355, 350, 352, 357-388, 371-377, 378-385, 394-417, 418-420, 445-473, 475-542, 544-557, 559-575, 650-657, 659-677, 765-773, 769, 771; `atomicity_types.py` 30
* `Verif/Partial/Model.lean`: `saving.py` 88-164, 236-249, 262-263, 266-306, 309-328, 331-345, 348-357, 360-380, 383-406, 409-432, 433-439, 461-507, 468, 477-498, 510-607; `base_pytree_checkpoint_handler.py` 241-243, 289-318, 322-334, 693-720; `snapshot.py` 32-35, 161-184; `atomicity.py` 133-142; `pytree_handler.py` 322-326; `execution.py` 190-206, 241-295; `ocdbt_utils.py` 138-213; `async_path.py` 64-73
* `Verif/Partial/Multi.lean`: `saving.py` 565-619, 566-573, 575-582, 584-591, 592, 595-600, 596-600, 597-600, 598-600, 602; `multihost.py` 50-57, 79-142, 205-211
* `Verif/Path/Format.lean`: `format_utils.py` 26-29, 32-33, 36-40, 43-44, 47-48, 51-57, 60-113; `base_pytree_checkpoint_handler.py` 1176-1206; `tensorstore_utils.py` 716-733; `checkpointer.py` 196-274, 376-400; `checkpoint.py` 197-235; `type_handlers.py` 
* `Verif/Path/Hns.lean`: `gcs_utils.py` 24, 27-28, 31-42, 66-101, 74-79, 87-93, 88, 88-89, 91-92, 104-119; `step.py` 394-417
* `Verif/Policies/Model.lean`: `preservation_policy.py` 73-81, 90-101, 110-133, 120-127, 144-179, 157-165, 167-171, 200-241, 212-213, 214-221, 216, 229-233, 251-265, 283-287, 311-348, 321-325, 326-330, 363-389, 373-377; `policy_checkpoint_info.py` 
* `Verif/PyTree/Model.lean`: `base_pytree_checkpoint_handler.py` 98-230, 98-168, 107-157, 193-230, 224-228, 516-588, 520-587, 601-1106, 601-768, 642-645, 793-836, 806-821, 823-831, 838-867, 847-856, 869-905, 874-880, 883-900, 887-891, 901-905, 906-1106, 1054-1059, 1068-1095, 1097-1103; `type_handler_registry.py` 31-51; `types.py` ; `empty_values.py` 33-37, 58-81, 106-132; `structure_utils.py` 56-182
* `Verif/PyTree/Transform.lean`: `pytree_checkpoint_handler.py` 116-433, 116-117, 120-175, 153-158, 162-174, 178-186, 311-370, 314-359, 378-391, 713-723, 719-723, 802-915; `transform_utils.py` 34-154; `base_pytree_checkpoint_handler.py` 107-157
* `Verif/Safetensors/Model.lean`: `safetensors_layout.py` 
* `Verif/SavePolicy/Model.lean`: `save_decision_policy.py` 33-46, 119-135, 235-242, 244-263, 252-263, 396-399; `checkpoint_manager.py` 166-181, 172-181, 184-209, 416-515, 1246-1250
* `Verif/Snapshots/Model.lean`: `snapshotter.py` 56-230
* `Verif/Store/Model.lean`: `step.py` 262-296; `checkpointer.py` 195-302, 250-285, 251-279; `atomicity.py` 104-161, 149-158, 164-167, 170-173, 412-428, 431-442, 445-559, 463-476, 531-542, 549-552, 623-625, 665-676; `atomicity_types.py` 31; `temporary_paths.py` 39-91, 94-146, 149-177, 180-211; `deleter.py` 72-173, 238-301, 276-292, 353-359
* `Verif/Store/Modes.lean`: `atomicity_defaults.py` 41-66, 99-127; `checkpointer.py` 153-168, 156-161, 315-322, 317-321; `checkpoint_manager.py` 863-881; `options.py` 65-70; `temporary_paths.py` 70-75, 126-131; `step.py` 286; `orbax_layout.py` 353-363; `orbax_v0_layout.py` 201-211
* `Verif/Store/Snapshot.lean`: `snapshot.py` 107-112, 115-132; `utils.py` 57-93, 84; `checkpoint_utils.py` 83-125, 128-150
* `Verif/Surgery/Transform.lean`: `stacking.py` ; `fusing.py` ; `repeating.py` ; `renaming.py` 
* `Verif/Tiering/Auth.lean`: `auth.py` 30-148, 30-57, 44-46, 60-79, 75-79, 82-95, 93-95, 98-120, 123-148; `storage_backend.py` 145-192; `server.py` 99-580, 99-182, 184-207, 209-287, 289-433, 435-489, 491-551, 553-580; `db_schema.py` 
* `Verif/Tiering/Client.lean`: `client.py` 62-68, 163-178, 234-238, 240-249, 271-303, 271-356, 277-303, 305-356, 325-329, 392-402, 443-458, 454-458, 494-559, 551-553, 551-559, 554-559, 573-581, 590-594
* `Verif/Tiering/Config.lean`: `server_config.py` 40-58, 61-66, 69-117, 74-79, 81-96, 98-103, 105-117, 120-127, 130-137, 140-153, 156-173
* `Verif/Tiering/Model.lean`: `db_schema.py` 35-42, 53-60, 63-69, 72-81, 84-172, 149-165, 309-394, 367-386, 397-505; `db_lib.py` 252-259, 277-284, 308-325, 337-387, 388-390, 396-411, 414-465, 448; `assets.py` 164-215, 258-276, 279-353, 356-378, 381-429, 503-564, 567-583, 576-581, 586-608, 660-667, 669-707, 710-787, 790-828, 831-840, 843-867, 870-904, 907-924; `server.py` 99-182, 173-177, 209-264, 320-365, 491-551; `job_worker.py` 46-73, 159-173, 175-224, 259-272, 389-396, 398-416, 418-472, 540-572, 574-610, 602-603, 612-618, 620-651, 728-811
* `Verif/Tiering/Routing.lean`: `storage_backend.py` 51-94, 71-75, 78-85, 87-92, 97-124, 115-119; `assets.py` 432-500, 453-454, 457-461, 465-467, 472-476, 479-481, 486-498; `gcp_storage_client.py` 208-214, 357-370, 372-406, 394-400, 408-433, 423-426, 428-433; `db_lib.py` 86-98, 101-147, 119-124, 164-230; `db_schema.py` 175-220, 238-306; `server.py` 124-126
* `Verif/Tiering/Transfer.lean`: `gcp_storage_client.py` 38-43, 46-49, 108-125, 217, 227-268, 245-268, 296-349, 307-314, 314-349, 320-321, 556-573, 597, 598-603, 660-692, 717-798, 746-756, 801-838; `job_worker.py` 175-224, 208-210, 279-284, 336-349, 457-466, 515, 540-572
* `Verif/Trees/Diff.lean`: `structure_utils.py` 51-182, 51-53, 56-182, 122-125, 130-133, 136-151, 152-153, 156-171, 172-173, 175-177
* `Verif/Trees/Flat.lean`: `utils.py` 124-422, 124-128, 131-203, 158-164, 166-201, 180-187, 206-226, 229-249, 233-243, 235-242, 257-294, 292-293, 322-349, 332-349, 333-348, 350-359, 367-369, 372-381, 390-422
* `Verif/Trees/Inferred.lean`: `utils.py` 36, 42, 78-109, 78-83, 86-88, 91-104, 112-148, 117-132, 136-147, 139-146; `pytree_checkpoint_handler.py` 969-980
* `Verif/Trees/Merge.lean`: `structure_utils.py` 515-655, 515-529, 532-592, 550-555, 551-555, 568-570, 595-655, 652-655
* `Verif/Trees/Nesting.lean`: `nesting.py` 26-86, 57-86, 64-84, 74-82; `utils.py` 297-359, 332-349, 350-359
* `Verif/Trees/PartsOf.lean`: `parts_of.py` 59-469, 70-113, 115-134, 136-141, 143-160, 184-185, 187-189, 196-209, 211-218, 220-270, 272-276, 278-299, 301-307, 361-392, 395-406, 432-469, 462-465; `utils.py` 425-432, 473-495
* `Verif/Trees/Transform.lean`: `transform_utils.py` 34-108, 93-108, 157-336, 157-294, 230, 239-281, 240-273, 245-273, 297-313, 316-336; `utils.py` 350-359
* `Verif/Trees/Tree.lean`: `utils.py` 55-134, 83-88, 91-102, 105-107, 110-111, 362-364
* `Verif/Trees/Trim.lean`: `structure_utils.py` 183-512, 262-269, 272-286, 278, 306-491, 317-341, 348-378, 360-365, 423-433, 494-512
* `Verif/V1/Context.lean`: `context.py` 31-446, 37-60, 63-89, 191-302, 230-302, 304-365, 417-446; `options.py` 37-79, 58-79; `checkpointer.py` 174, 279, 567-582, 778, 824, 862, 882
* `Verif/V1/Creation.lean`: `async_utils.py` 38-252, 38-46, 53-61, 55, 56-61, 84-92, 160-168, 207, 208-209, 210-211, 214
* `Verif/V1/Keys.lean`: `synchronization.py` 51-66, 63-66, 84-101; `multihost.py` 50-57, 65-76, 79-160, 108, 205-218; `options.py` 150-200; `pytree_handler.py` 348-392; `execution.py` 220-227, 281-289, 299-334, 374-436, 394-399; `loading.py` 379-384, 379-407, 476-488; `path_utils.py` 59-125; `async_utils.py` 84-92; `saving.py` 565-620
* `Verif/V1/Layout.lean`: `validation.py` ; `execution.py` ; `step_metadata_serialization.py` ; `checkpoint_layout.py` ; `orbax_layout.py` ; `registry.py` ; `orbax_v0_layout.py` ; `resolution.py` ; `loading.py` 
* `Verif/V1/MetadataApi.lean`: `loading.py` ; `resolution.py` ; `orbax_layout.py` ; `orbax_v0_layout.py` 
* `Verif/V1/MultiSave.lean`: `path_utils.py` 59-125, 59-75, 75, 76-84, 105-112, 113, 113-117, 117; `async_utils.py` 38-92, 84-92; `pytree_handler.py` 322-329, 331-392, 338-346, 348-392, 348-369, 350-369, 372-392; `execution.py` 160-233, 183-227, 220-227, 299-334; `stateful_checkpointable_handler.py` 29-36; `multihost.py` 50-57, 79-160
* `Verif/V1/Registry.lean`: `registration.py` ; `resolution.py` ; `types.py` 
* `Verif/V1/Training.lean`: `checkpointer.py` ; `checkpoint_manager.py` ; `checkpoint_info.py` ; `deleter.py` ; `async_checkpointer.py` 
