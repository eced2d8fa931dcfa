{
 "claims": [
  {
   "property": "C01",
   "status": "proved",
   "theorems": [
    "Verif.LinkedMap.C01_find_topmost",
    "Verif.LinkedMap.C01_iteration",
    "Verif.LinkedMap.C01_extensional",
    "Verif.LinkedMap.C01_empty_eq",
    "Verif.LinkedMap.C01_keys_values"
   ],
   "note": ""
  },
  {
   "property": "C02",
   "status": "proved",
   "theorems": [
    "Verif.LinkedMap.C02_union_right_biased",
    "Verif.LinkedMap.C02_union_rejects_non_maps"
   ],
   "note": ""
  },
  {
   "property": "C03",
   "status": "proved",
   "theorems": [
    "Verif.LinkedMap.C03_disjoint_succeeds_iff",
    "Verif.LinkedMap.C03_disjoint_result",
    "Verif.LinkedMap.C03_disjoint_conflict_real",
    "Verif.LinkedMap.C03_disjoint_order_independent"
   ],
   "note": ""
  },
  {
   "property": "C04",
   "status": "proved",
   "theorems": [
    "Verif.LinkedMap.C04_prune_get",
    "Verif.LinkedMap.C04_prune_canonical",
    "Verif.LinkedMap.C04_prune_prune",
    "Verif.LinkedMap.C04_update_get",
    "Verif.LinkedMap.C04_updateExpr_get",
    "Verif.LinkedMap.C04_updateOne_get",
    "Verif.LinkedMap.C04_prune_forgets_update"
   ],
   "note": ""
  },
  {
   "property": "C05",
   "status": "proved",
   "theorems": [
    "Verif.Expr.C05_locality",
    "Verif.Expr.C05_function"
   ],
   "note": ""
  },
  {
   "property": "C06",
   "status": "proved",
   "theorems": [
    "Verif.Expr.C06_join_cmd"
   ],
   "note": ""
  },
  {
   "property": "C07",
   "status": "proved",
   "theorems": [
    "Verif.Expr.C07_nub_left",
    "Verif.Expr.C07_nub_right",
    "Verif.Expr.C07_set"
   ],
   "note": ""
  },
  {
   "property": "C08",
   "status": "proved",
   "theorems": [
    "Verif.Expr.C08_enumerate",
    "Verif.Expr.C08_padded"
   ],
   "note": ""
  },
  {
   "property": "C09",
   "status": "partial",
   "theorems": [
    "Verif.Expr.C09_identifier_partial",
    "Verif.Expr.C09_violation",
    "Verif.Expr.C09_violation_infinite"
   ],
   "note": "Proved for values with finite numbers in which no list or map looks like the description of an artifact, node or result; false otherwise: C09_violation, C09_violation_infinite (V11)."
  },
  {
   "property": "C10",
   "status": "partial",
   "theorems": [
    "Verif.Expr.C10_quasi_quote_partial",
    "Verif.Expr.C10_violation"
   ],
   "note": "Proved for literals in which no list has a map as entry; for others false: C10_violation (V1)."
  },
  {
   "property": "C11",
   "status": "proved",
   "theorems": [
    "Verif.Chunker.C11_chunking",
    "Verif.Chunker.C11_concat",
    "Verif.Chunker.C11_chunk_sizes",
    "Verif.Chunker.C11_deterministic",
    "Verif.Chunker.C11_suffix"
   ],
   "note": ""
  },
  {
   "property": "C12",
   "status": "proved",
   "theorems": [
    "Verif.Storage.C12_chunker_laws",
    "Verif.Storage.C12_split_parts",
    "Verif.Storage.C12_split_succeeds",
    "Verif.Storage.C12_round_trip",
    "Verif.Storage.C12_splice_sound",
    "Verif.Storage.C12_splice_error"
   ],
   "note": ""
  },
  {
   "property": "C13",
   "status": "proved",
   "theorems": [
    "Verif.Chunker.C13_chunk_not_split",
    "Verif.Chunker.C13_chunker_on_chunk"
   ],
   "note": ""
  },
  {
   "property": "C14",
   "status": "partial",
   "theorems": [
    "Verif.Storage.C14_survives",
    "Verif.Storage.C14_blob_found",
    "Verif.Storage.C14_tree_found",
    "Verif.Storage.C14_action_found_partial",
    "Verif.Storage.C14_target_found_partial",
    "Verif.Storage.C14_action_violation"
   ],
   "note": "Blobs and trees: proved without restriction. Action-cache and target-cache entries: proved if the metadata blobs (results, target-cache values) are never stored split; otherwise false, see C14_action_violation (V7)."
  },
  {
   "property": "C15",
   "status": "proved",
   "theorems": [
    "Verif.Storage.C15_crash_safe",
    "Verif.Storage.C15_renames",
    "Verif.Storage.C15_rotation_complete",
    "Verif.Storage.C15_remove_all"
   ],
   "note": ""
  },
  {
   "property": "C16",
   "status": "proved",
   "theorems": [
    "Verif.Storage.C16_generations_closed",
    "Verif.Storage.C16_trees_complete",
    "Verif.Storage.C16_violation_write_fault"
   ],
   "note": "Proved for all interleavings and crash points under the assumption that writing a file either succeeds or leaves nothing; with failing writes it is false, see C16_violation_write_fault (V9)."
  },
  {
   "property": "C17",
   "status": "partial",
   "theorems": [
    "Verif.Storage.C17_lookup_promotes_partial",
    "Verif.Storage.C17_violation"
   ],
   "note": "False for looking up the entry itself, as the search stops at the wrong generation: C17_violation (V2). Partial: lookups of blobs promote the entry and all its parts from any generation."
  },
  {
   "property": "C18",
   "status": "proved",
   "theorems": [
    "Verif.Storage.C18_compactification",
    "Verif.Storage.C18_only_invalid_removed",
    "Verif.Storage.C18_violation_write_fault"
   ],
   "note": "Proved for all interleavings and crash points under the assumption that writes succeed; with failing writes it is false, see C18_violation_write_fault (V8)."
  },
  {
   "property": "C19",
   "status": "proved",
   "theorems": [
    "Verif.Storage.C19_intact",
    "Verif.Storage.C19_content_unique",
    "Verif.Storage.C19_store_blob",
    "Verif.Storage.C19_lookup_blob",
    "Verif.Storage.C19_lookup_tree",
    "Verif.Storage.C19_lookup_finds"
   ],
   "note": ""
  },
  {
   "property": "C20",
   "status": "partial",
   "theorems": [
    "Verif.Storage.C20_hit_complete_partial",
    "Verif.Storage.C20_target_hit_complete",
    "Verif.Storage.C20_violation_symlinks"
   ],
   "note": "Proved for results without symbolic links among their outputs; symbolic links listed in output_symlinks only are not kept with the entry: C20_violation_symlinks (V25)."
  },
  {
   "property": "C21",
   "status": "proved",
   "theorems": [
    "Verif.Exec.C21_served",
    "Verif.Exec.C21_stored",
    "Verif.Exec.C21_not_cached",
    "Verif.Exec.C21_history"
   ],
   "note": ""
  },
  {
   "property": "C22",
   "status": "proved",
   "theorems": [
    "Verif.Dag.C22_at_most_once",
    "Verif.Dag.C22_available_once",
    "Verif.Dag.C22_after_inputs",
    "Verif.Dag.C22_sources_only",
    "Verif.Dag.C22_graph_accepted",
    "Verif.Dag.C22_graph_described",
    "Verif.Dag.C22_graph_ok"
   ],
   "note": "For all graphs DependencyGraph::Add accepts (C22_graph_ok), any number of threads, all interleavings of the accesses to shared state, and all answers of the runner."
  },
  {
   "property": "C23",
   "status": "proved",
   "theorems": [
    "Verif.Dag.C23_ends",
    "Verif.Dag.C23_complete",
    "Verif.Dag.C23_failed_iff",
    "Verif.Dag.C23_progress"
   ],
   "note": "For graphs without cycles. Every traversal of finitely many nodes ends (C23_ends), and it ends marked as failed exactly if something failed or was unknown (C23_failed_iff)."
  },
  {
   "property": "C24",
   "status": "proved",
   "theorems": [
    "Verif.Dag.C24_only_needed"
   ],
   "note": ""
  },
  {
   "property": "C25",
   "status": "partial",
   "theorems": [
    "Verif.Async.C25_once",
    "Verif.Async.C25_requested",
    "Verif.Async.C25_exclusive",
    "Verif.Async.C25_final",
    "Verif.Async.C25_value_partial",
    "Verif.Async.C25_value_given",
    "Verif.Async.C25_overwritten"
   ],
   "note": "For all behaviours of value creators and consumers and all interleavings. That the value never changes is proved if the setter is called at most once; a second call overwrites it: C25_overwritten (V26)."
  },
  {
   "property": "C26",
   "status": "partial",
   "theorems": [
    "Verif.Async.C26_defined",
    "Verif.Async.C26_once",
    "Verif.Async.C26_ready",
    "Verif.Async.C26_handled",
    "Verif.Async.C26_failed",
    "Verif.Async.C26_quiescent",
    "Verif.Async.C26_all_ready",
    "Verif.Async.C26_some_failed_partial",
    "Verif.Async.C26_passed_on",
    "Verif.Async.C26_ends",
    "Verif.Async.C26_settles",
    "Verif.Async.C26_failure_unnoticed",
    "Verif.Async.C26_race"
   ],
   "note": "For all behaviours of value creators and consumers and all interleavings. Failure handlers: proved for calls all of whose keys are ready or failed; a call waiting for an earlier key does not notice the failure of a later one: C26_failure_unnoticed (V27). The test for readiness without lock is a data race: C26_race (V28)."
  },
  {
   "property": "C27",
   "status": "proved",
   "theorems": [
    "Verif.Async.C27_deadlock",
    "Verif.Async.C27_real",
    "Verif.Async.C27_safe",
    "Verif.Async.C27_sound",
    "Verif.Async.C27_reported_iff"
   ],
   "note": "For all request maps and all orders of their enumeration; C27_deadlock and C27_real relate the requests to the calls of the map itself."
  },
  {
   "property": "C28",
   "status": "partial",
   "theorems": [
    "Verif.Tasks.C28_finish_partial",
    "Verif.Tasks.C28_stays_finished_partial",
    "Verif.Tasks.C28_once",
    "Verif.Tasks.C28_progress",
    "Verif.Tasks.C28_shutdown_ends",
    "Verif.Tasks.C28_no_spinning",
    "Verif.Tasks.C28_returns",
    "Verif.Tasks.Example.C28_shutdown_returns_early"
   ],
   "note": "Proved unless the system is shut down, for any number of threads and all interleavings; after shutdown waiting may return while tasks are running: C28_shutdown_returns_early (V29). Every call of Finish returns (C28_returns), shutting down ends all threads (C28_shutdown_ends)."
  },
  {
   "property": "C29",
   "status": "proved",
   "theorems": [
    "Verif.Analyse.C29_exact",
    "Verif.Analyse.C29_same_ids",
    "Verif.Analyse.C29_same",
    "Verif.Analyse.C29_first",
    "Verif.Analyse.C29_origins",
    "Verif.Analyse.C29_origins_same",
    "Verif.Analyse.C29_targets_same"
   ],
   "note": "For all orders of additions, all widths, hash functions, enumeration orders of hash tables, and all (also unstable) sorting algorithms, provided that analysis gives the same result for the same configured target (C55). Origins and the list of targets as well."
  },
  {
   "property": "C30",
   "status": "partial",
   "theorems": [
    "Verif.Tree.C30_overlay_partial",
    "Verif.Tree.C30_violation"
   ],
   "note": "Proved for complete trees in which entries that are the same object have the same type; false otherwise: C30_violation (V4)."
  },
  {
   "property": "C31",
   "status": "partial",
   "theorems": [
    "Verif.Tree.C31_conflict_partial",
    "Verif.Tree.C31_union_partial",
    "Verif.Tree.C31_violation"
   ],
   "note": "Proved (exact condition, symmetry, union) for complete trees in which entries that are the same object have the same type; false otherwise: C31_violation (V4)."
  },
  {
   "property": "C32",
   "status": "proved",
   "theorems": [
    "Verif.Tree.C32_round_trip",
    "Verif.Tree.C32_order",
    "Verif.Tree.C32_injective"
   ],
   "note": ""
  },
  {
   "property": "C33",
   "status": "partial",
   "theorems": [
    "Verif.Tree.C33_types_partial",
    "Verif.Tree.C33_violation"
   ],
   "note": "Proved for trees in which entries that are the same object have the same type; false otherwise: C33_violation (V4)."
  },
  {
   "property": "C34",
   "status": "partial",
   "theorems": [
    "Verif.Stage.C34_accept_partial",
    "Verif.Stage.C34_content_partial",
    "Verif.Stage.C34_order_partial",
    "Verif.Stage.C34_violation"
   ],
   "note": "Exact for all paths whose lexical normal form has no trailing slash; false otherwise: C34_violation (V15)."
  },
  {
   "property": "C35",
   "status": "partial",
   "theorems": [
    "Verif.Symlinks.C35_function",
    "Verif.Symlinks.C35_complete_links",
    "Verif.Symlinks.C35_partial_links",
    "Verif.Symlinks.C35_complete_partial",
    "Verif.Symlinks.C35_partially_partial",
    "Verif.Symlinks.C35_unique_partial",
    "Verif.Symlinks.C35_confined",
    "Verif.Symlinks.C35_broken_partial",
    "Verif.Symlinks.C35_cycle",
    "Verif.Symlinks.C35_result",
    "Verif.Symlinks.C35_ignore",
    "Verif.Symlinks.C35_violation_moved",
    "Verif.Symlinks.C35_violation_own",
    "Verif.Symlinks.C35_violation_lexical",
    "Verif.Symlinks.C35_violation_elsewhere"
   ],
   "note": "All values that any order of requests can give. Absence of links, confinement, cycles and the ignoring mode are proved in full; what paths hold is proved for links whose content goes up only in front. Violations: C35_violation_moved (V32), C35_violation_own (V33), C35_violation_lexical (V34), C35_violation_elsewhere (V35)."
  },
  {
   "property": "C36",
   "status": "proved",
   "theorems": [
    "Verif.Remote.Upload.C36_upload",
    "Verif.Remote.Upload.C36_verify",
    "Verif.Remote.Upload.C36_root",
    "Verif.Remote.Upload.C36_ends",
    "Verif.Remote.Upload.C36_violation_compatible"
   ],
   "note": "For the native protocol, as stated; for the compatible protocol it is false: C36_violation_compatible (V21)."
  },
  {
   "property": "C37",
   "status": "proved",
   "theorems": [
    "Verif.Stage.C37_exact",
    "Verif.Stage.C37_content",
    "Verif.Stage.C37_defined"
   ],
   "note": ""
  },
  {
   "property": "C38",
   "status": "partial",
   "theorems": [
    "Verif.Stage.C38_tree_partial",
    "Verif.Stage.C38_violation"
   ],
   "note": "Exact for maps with keys in normal form; false otherwise: C38_violation (V5)."
  },
  {
   "property": "C39",
   "status": "proved",
   "theorems": [
    "Verif.Path.C39_location",
    "Verif.Path.C39_canonical",
    "Verif.Path.C39_idempotent",
    "Verif.Path.C39_form"
   ],
   "note": ""
  },
  {
   "property": "C40",
   "status": "partial",
   "theorems": [
    "Verif.Path.C40_non_upwards_partial",
    "Verif.Path.C40_confined_partial",
    "Verif.Path.C40_violation"
   ],
   "note": "Exact for all non-empty paths; for the empty path the check dereferences an end iterator: C40_violation (V12)."
  },
  {
   "property": "C41",
   "status": "partial",
   "theorems": [
    "Verif.Names.C41_relative_partial",
    "Verif.Names.C41_violation"
   ],
   "note": "Proved for all references except those leading exactly one level above the root; false for those: C41_violation (V3)."
  },
  {
   "property": "C42",
   "status": "partial",
   "theorems": [
    "Verif.Names.C42_text_injective",
    "Verif.Names.C42_roundtrip_partial",
    "Verif.Names.C42_violation_reference",
    "Verif.Names.C42_violation_context",
    "Verif.Names.C42_forms",
    "Verif.Names.C42_normal",
    "Verif.Names.C42_order"
   ],
   "note": "Injectivity and canonicity of the printed form are proved without restriction; the round trip holds for plain targets wherever the name of their repository is bound to it; false for file/tree/glob/symlink references and other repositories: C42_violation_reference, C42_violation_context (V14)."
  },
  {
   "property": "C43",
   "status": "partial",
   "theorems": [
    "Verif.Path.C43_rebase_partial",
    "Verif.Path.C43_violation"
   ],
   "note": "Proved for working directories without `..`; false with `..`: C43_violation (V13)."
  },
  {
   "property": "C44",
   "status": "partial",
   "theorems": [
    "Verif.Dig.C44_round_trip",
    "Verif.Dig.C44_injective",
    "Verif.Dig.C44_accepts_partial",
    "Verif.Dig.C44_violation"
   ],
   "note": "Round trip and injectivity are proved without restriction; of the rejection of malformed input only what C44_accepts_partial states, the rest is false: C44_violation (V19)."
  },
  {
   "property": "C45",
   "status": "partial",
   "theorems": [
    "Verif.Dig.C45_round_trip",
    "Verif.Dig.C45_accepts_partial",
    "Verif.Dig.C45_violation"
   ],
   "note": "Round trip is proved without restriction; of the rejection of malformed input only what C45_accepts_partial states, the rest is false: C45_violation (V19)."
  },
  {
   "property": "C46",
   "status": "proved",
   "theorems": [
    "Verif.Dig.C46_read",
    "Verif.Dig.C46_write"
   ],
   "note": ""
  },
  {
   "property": "C47",
   "status": "proved",
   "theorems": [
    "Verif.Action.C47_action",
    "Verif.Action.C47_tree",
    "Verif.Action.C47_overlay",
    "Verif.Action.C47_kinds"
   ],
   "note": ""
  },
  {
   "property": "C48",
   "status": "proved",
   "theorems": [
    "Verif.Repo.C48_minimal",
    "Verif.Repo.C48_representative",
    "Verif.Repo.C48_at"
   ],
   "note": ""
  },
  {
   "property": "C49",
   "status": "proved",
   "theorems": [
    "Verif.Repo.C49_requests",
    "Verif.Repo.C49_violation_stale",
    "Verif.Repo.C49_ends",
    "Verif.Repo.C49_exists",
    "Verif.Repo.C49_key"
   ],
   "note": "Proved for every configuration, between configurations, and for all sequences of requests after set-up; a change after a request leaves stale keys, which the tool avoids: C49_violation_stale (V23)."
  },
  {
   "property": "C50",
   "status": "proved",
   "theorems": [
    "Verif.Remote.C50_limit",
    "Verif.Remote.C50_complete",
    "Verif.Remote.C50_failure"
   ],
   "note": ""
  },
  {
   "property": "C51",
   "status": "partial",
   "theorems": [
    "Verif.Remote.C51_missing_partial",
    "Verif.Remote.C51_sound",
    "Verif.Remote.C51_requests_partial",
    "Verif.Remote.C51_violation_exception"
   ],
   "note": "Proved for all server behaviours and limits; if an exception is thrown in between, the rest is taken to be available: C51_violation_exception (V22)."
  },
  {
   "property": "C52",
   "status": "partial",
   "theorems": [
    "Verif.Remote.C52_build",
    "Verif.Remote.C52_backoff_partial",
    "Verif.Remote.C52_sleep_partial",
    "Verif.Remote.C52_violation_first",
    "Verif.Remote.C52_violation_overflow",
    "Verif.Remote.C52_violation_jitter",
    "Verif.Remote.C52_stops_partial",
    "Verif.Remote.C52_gives_up_partial",
    "Verif.Remote.C52_violation_attempts"
   ],
   "note": "Proved for configurations within the stated bounds; false otherwise (first sleep not capped, wrap-around, endless loop for 2^32-1 attempts): C52_violation_* (V6)."
  },
  {
   "property": "C53",
   "status": "partial",
   "theorems": [
    "Verif.Remote.OpCache.C53_set",
    "Verif.Remote.OpCache.C53_running",
    "Verif.Remote.OpCache.C53_sound",
    "Verif.Remote.OpCache.C53_oldest",
    "Verif.Remote.OpCache.C53_threshold_partial",
    "Verif.Remote.OpCache.C53_violation_threshold"
   ],
   "note": "Proved for all positive thresholds; accepted threshold exponents from 32 on are undefined behaviour: C53_violation_threshold (V20)."
  },
  {
   "property": "C54",
   "status": "proved",
   "theorems": [
    "Verif.Dag.C54_marked_iff",
    "Verif.Dag.C54_success",
    "Verif.Dag.C54_failure",
    "Verif.Dag.C54_reported"
   ],
   "note": "For every traversal (as in C22) in which the runner answers as Executor::Process does."
  },
  {
   "property": "C55",
   "status": "proved",
   "theorems": [
    "Verif.Analyse.C55_same",
    "Verif.Analyse.C55_effective",
    "Verif.Analyse.C55_configured",
    "Verif.Analyse.C55_vars_user",
    "Verif.Analyse.C55_transition",
    "Verif.Analyse.C55_configure",
    "Verif.Analyse.C55_export"
   ],
   "note": "For all kinds of targets, with evaluation of expressions an arbitrary function of the (pruned) configuration and the values handed to it. C55_configured is what C29 needs: results of the same configured target are the same."
  },
  {
   "property": "C56",
   "status": "partial",
   "theorems": [
    "Verif.Analyse.C56_taint",
    "Verif.Analyse.C56_taint_own",
    "Verif.Analyse.C56_exported",
    "Verif.Analyse.C56_implied_partial",
    "Verif.Analyse.C56_implied_eligible",
    "Verif.Analyse.C56_violation_ineligible"
   ],
   "note": "Taint is proved for all transitive dependencies (anonymous ones as well), exported targets are untainted. Implied export targets: exact, except that an export target not eligible for caching hides those beneath it: C56_violation_ineligible (V30); C56_implied_eligible is the full claim if all are eligible."
  },
  {
   "property": "C57",
   "status": "partial",
   "theorems": [
    "Verif.Storage.C57_task_succeeds_partial",
    "Verif.Storage.C57_violation_race"
   ],
   "note": "False for concurrent tasks: C57_violation_race (V10). Partial: each task running alone succeeds."
  },
  {
   "property": "C58",
   "status": "partial",
   "theorems": [
    "Verif.Stage.C58_cwd_partial",
    "Verif.Stage.C58_violation"
   ],
   "note": "Proved for working directories in normal form; false otherwise: C58_violation (V16)."
  },
  {
   "property": "C59",
   "status": "proved",
   "theorems": [
    "Verif.Expr.C59_evaluation_terminates",
    "Verif.Expr.C59_uniform"
   ],
   "note": ""
  },
  {
   "property": "C60",
   "status": "proved",
   "theorems": [
    "Verif.Expr.C60_to_subdir"
   ],
   "note": ""
  },
  {
   "property": "C61",
   "status": "partial",
   "theorems": [
    "Verif.Expr.C61_from_subdir_partial",
    "Verif.Expr.C61_inverse_partial",
    "Verif.Expr.C61_violation"
   ],
   "note": "Exact, and inverse to to_subdir, for sub-directories and keys in normal form; false otherwise: C61_violation (V18)."
  },
  {
   "property": "C62",
   "status": "proved",
   "theorems": [
    "Verif.Art.C62_round_trip",
    "Verif.Art.C62_identifier"
   ],
   "note": ""
  },
  {
   "property": "C63",
   "status": "proved",
   "theorems": [
    "Verif.Expr.C63_json_encode",
    "Verif.Expr.C63_injective"
   ],
   "note": ""
  },
  {
   "property": "C64",
   "status": "partial",
   "theorems": [
    "Verif.Result.C64_round_trip_partial",
    "Verif.Result.C64_missing",
    "Verif.Result.C64_violation"
   ],
   "note": "Proved if parts of the provides map with the same identifier are equal, which holds under the conditions of C09; false otherwise: C64_violation (V11). That nothing is written iff a replacement is missing is proved under the same condition."
  },
  {
   "property": "C65",
   "status": "proved",
   "theorems": [
    "Verif.Action.C65_action",
    "Verif.Action.C65_tree",
    "Verif.Action.C65_overlay"
   ],
   "note": ""
  },
  {
   "property": "C66",
   "status": "partial",
   "theorems": [
    "Verif.Expr.C66_value_partial",
    "Verif.Expr.C66_abstract_partial",
    "Verif.Expr.C66_violation"
   ],
   "note": "Proved for value nodes; for abstract nodes the target fields are compared with the string fields, so it is false: C66_violation (V17)."
  },
  {
   "property": "C67",
   "status": "proved",
   "theorems": [
    "Verif.Remote.C67_success",
    "Verif.Remote.C67_complete",
    "Verif.Remote.C67_ends"
   ],
   "note": ""
  },
  {
   "property": "C68",
   "status": "partial",
   "theorems": [
    "Verif.Exec.C68_served_again_partial",
    "Verif.Exec.C68_violation_paths",
    "Verif.Exec.C68_violation_dirs"
   ],
   "note": "Proved if all outputs are of the kind asked for; false for symbolic links: C68_violation_paths, C68_violation_dirs (V24)."
  },
  {
   "property": "C69",
   "status": "partial",
   "theorems": [
    "Verif.Analyse.C69_defined_partial",
    "Verif.Analyse.C69_violation_generic"
   ],
   "note": "Proved except for `generic` targets whose dependencies cannot be evaluated: C69_violation_generic (V31, null pointer dereferenced). Evaluation of expressions itself is covered by C59."
  },
  {
   "property": "C70",
   "status": "partial",
   "theorems": [
    "Verif.Stage.C70_content_partial",
    "Verif.Stage.C70_exact_partial",
    "Verif.Stage.C70_inside_partial",
    "Verif.Stage.C70_order",
    "Verif.Stage.C70_violation_overlay",
    "Verif.Stage.C70_violation_outside",
    "Verif.Stage.C70_violation_two"
   ],
   "note": "Content, acceptance and confinement are proved for stages and paths in normal form; independence of the order of files in full. Violations: a file at the path of a runfile of deps is an error instead of overriding it (C70_violation_overlay, V36); paths of files are not normalised, so that an artifact can be installed outside of the output directory (C70_violation_outside, V37) and two artifacts at one place are accepted (C70_violation_two, V38)."
  },
  {
   "property": "C71",
   "status": "partial",
   "theorems": [
    "Verif.Action.C71_action",
    "Verif.Action.C71_outputs",
    "Verif.Action.C71_accepted",
    "Verif.Action.C71_untainted",
    "Verif.Action.C71_inputs_partial",
    "Verif.Action.C71_identity",
    "Verif.Action.C71_generic",
    "Verif.Action.C71_generic_accepted",
    "Verif.Action.C71_generic_inputs_partial",
    "Verif.Action.C71_violation_outside"
   ],
   "note": "Proved in full, with acceptance being exact, but for two things: outputs of `ACTION` are not checked to be inside of the action root (C71_violation_outside, V39; for `generic` targets they are), and that the inputs together with the working directory fit into one stage is proved for working directories in normal form (see C58). The identifier of the action is covered by C47, which C71_identity uses."
  },
  {
   "property": "C72",
   "status": "proved",
   "theorems": [
    "Verif.Analyse.Rule.C72_available",
    "Verif.Analyse.Rule.C72_form",
    "Verif.Analyse.Rule.C72_names",
    "Verif.Analyse.Rule.C72_analysis"
   ],
   "note": "For targets defined by rules; targets defined by built-in rules enter C72_analysis only as sources. The vectors of recorded actions etc. only grow; the model is given their final contents and lets a call succeed only if what it records is among them."
  },
  {
   "property": "C73",
   "status": "proved",
   "theorems": [
    "Verif.Analyse.Rule.C73_available",
    "Verif.Analyse.Rule.C73_untainted",
    "Verif.Analyse.Rule.C73_cone",
    "Verif.Analyse.Rule.C73_unmarked",
    "Verif.Analyse.Rule.C73_anonymous"
   ],
   "note": "For all named targets; C73_anonymous proves that the restriction is necessary. That identifiers of recorded actions, trees and overlays do not collide is the assumption Faithful of C73_cone and C73_unmarked; faithful_of_noCollision derives it from C47."
  },
  {
   "property": "C74",
   "status": "partial",
   "theorems": [
    "Verif.Analyse.Rule.C74_tree_partial",
    "Verif.Analyse.Rule.C74_tree_exact_partial",
    "Verif.Analyse.Rule.C74_tree_order_partial",
    "Verif.Analyse.Rule.C74_overlay_partial",
    "Verif.Analyse.Rule.C74_glob",
    "Verif.Analyse.Rule.C74_source_tree",
    "Verif.Analyse.Rule.C74_file_reference_partial",
    "Verif.Analyse.Rule.C74_file_gen",
    "Verif.Analyse.Rule.C74_symlink_partial",
    "Verif.Analyse.Rule.C74_violation_outside",
    "Verif.Analyse.Rule.C74_violation_lost",
    "Verif.Analyse.Rule.C74_violation_unnamed",
    "Verif.Analyse.Rule.C74_violation_empty_name",
    "Verif.Analyse.Rule.C74_violation_tree_reference"
   ],
   "note": "Contents and acceptance are proved for stages in normal form; globs and source trees in full. Violations: names of file_gen, symlink, tree and overlay targets are not checked (C74_violation_outside, V40), so that two files for one place give a tree with only one of them (C74_violation_lost); the default name of a tree target is empty, which is undefined behaviour in targets depending on it (C74_violation_unnamed, V41); references to trees can lead out of the workspace, and the empty name of a file is undefined behaviour (C74_violation_tree_reference, C74_violation_empty_name, V42)."
  },
  {
   "property": "C75",
   "status": "partial",
   "theorems": [
    "Verif.TC.C75_key_partial",
    "Verif.TC.C75_violation_key",
    "Verif.TC.C75_violation_infinite",
    "Verif.TC.C75_backend",
    "Verif.TC.C75_entry_partial",
    "Verif.TC.C75_artifacts_partial",
    "Verif.TC.C75_complete",
    "Verif.TC.C75_all_written",
    "Verif.TC.C75_origin",
    "Verif.TC.C75_transparent_partial"
   ],
   "note": "Backend description, completeness of entries under all interleavings, and origin of entries are proved in full; keys for configurations made of JSON values with finite numbers, entries for results whose parts are identified (C64). Violations: a target name in a configuration gives the same key as the list looking like it (C75_violation_key, V43), numbers that are not finite give the same key and entry as null (C75_violation_infinite, V43). That all artifacts not known have replacements (Covered) is how the map of replacements is computed (CollectNonKnownArtifacts)."
  },
  {
   "property": "C76",
   "status": "partial",
   "theorems": [
    "Verif.RE.C76_key",
    "Verif.RE.C76_uncached",
    "Verif.RE.C76_served",
    "Verif.RE.C76_order",
    "Verif.RE.C76_properties",
    "Verif.RE.C76_dispatch",
    "Verif.RE.C76_graph_partial"
   ],
   "note": "Everything is proved in full for requests with proper root digest and timeout in the range of int64; only the statement on the places of outputs of actions of the graph is restricted to working directories without '..' (C43_violation). Collisions of the hash function are explicit alternatives in the conclusions, for the messages of the two requests in question, not assumptions."
  },
  {
   "property": "C77",
   "status": "partial",
   "theorems": [
    "Verif.Mr.C77_violation_recorded",
    "Verif.Rehash.C77_to_git_partial",
    "Verif.Rehash.C77_same_git_partial",
    "Verif.Rehash.C77_to_compat",
    "Verif.Rehash.C77_same",
    "Verif.Rehash.C77_violation_empty",
    "Verif.Rehash.C77_violation_type",
    "Verif.Rehash.C77_violation_collected"
   ],
   "note": "From git to directories everything on digests and contents is proved in full; from directories to git for directories in which no hash is used both for a directory and for a file, and with proper hashes. Violations: an empty file in a directory with an empty subdirectory becomes an entry with the id of the empty tree (C77_violation_empty, V44); the type returned for a blob is the one with which the content was first seen, so executable bits are lost or gained (C77_violation_type, V45); known associations outlive the contents in the CAS (C77_violation_collected, V46); just-mr records a wrong association for archives fetched from a compatible remote (C77_violation_recorded, V65)."
  },
  {
   "property": "C78",
   "status": "partial",
   "theorems": [
    "Verif.Response.C78_same",
    "Verif.Response.C78_links",
    "Verif.Response.C78_request",
    "Verif.Response.C78_again_partial",
    "Verif.Response.C78_local",
    "Verif.Response.Example.C78_violation_cached",
    "Verif.Response.Example.C78_violation_missing"
   ],
   "note": "Proved in full for answers to executions (C78_same, C78_links, C78_request, C78_local); answering from the action cache is proved for the native protocol only. Violations in compatible mode: entries of the action cache written by the service hold digests of Tree messages, which local builds on the same storage take for Directory messages (C78_violation_cached, V47); if a Tree message is missing, the client matches the others to the wrong paths (C78_violation_missing, V48)."
  },
  {
   "property": "C79",
   "status": "partial",
   "theorems": [
    "Verif.Roots.C79_root_partial",
    "Verif.Roots.C79_same_partial",
    "Verif.Roots.C79_error",
    "Verif.Roots.Example.C79_violation_dot"
   ],
   "note": "Proved for all stages in which every artifact has a path of at least one name. Violation: a tree staged as `.`, which is accepted if it is the only artifact, becomes an entry with name `.` of the root (C79_violation_dot, V49)."
  },
  {
   "property": "C80",
   "status": "partial",
   "theorems": [
    "Verif.Install.C80_files",
    "Verif.Install.C80_content_partial",
    "Verif.Install.C80_confined",
    "Verif.Install.C80_success",
    "Verif.Install.C80_again",
    "Verif.Install.Example.C80_violation_empty",
    "Verif.Install.Example.C80_violation_root",
    "Verif.Install.Example.C80_violation_upwards",
    "Verif.Install.C80_import",
    "Verif.Install.C80_root_partial"
   ],
   "note": "Proved for files, and for directories if every directory in the artifacts has a file below it (C80_content_partial, C80_root_partial). Violations: empty directories in artifacts are not installed, so building, installing, and importing gives another root than the computation from the target cache (C80_violation_empty, C80_violation_root, V50); names of entries of trees are not checked, and an entry `..` writes outside of the output directory (C80_violation_upwards, V51). File system is modelled without symbolic links to directories in the way."
  },
  {
   "property": "C81",
   "status": "partial",
   "theorems": [
    "Verif.Struct.C81_structure",
    "Verif.Struct.C81_same",
    "Verif.Struct.C81_fixed",
    "Verif.Struct.C81_success",
    "Verif.Struct.Example.C81_violation_link",
    "Verif.Struct.Example.C81_violation_empty",
    "Verif.Struct.C81_local_partial",
    "Verif.Struct.C81_local_same_partial"
   ],
   "note": "Computing and caching proved for all trees (C81_structure, C81_same, C81_fixed, C81_success). The git repository proved for trees without symbolic links and with a file below every subdirectory (C81_local_partial, C81_local_same_partial). Violations: for a tree with a symbolic link, importing the structure accesses the first segment of an empty path (C81_violation_link, V52); with an empty subdirectory, the tree reported is not in the repository, and a second call reports another tree (C81_violation_empty, V53)."
  },
  {
   "property": "C82",
   "status": "partial",
   "theorems": [
    "Verif.Remote.Download.C82_violation_flaky",
    "Verif.Remote.Download.C82_violation_flaky_sequential",
    "Verif.Remote.Download.C82_violation_wrong",
    "Verif.Remote.Download.C82_parallel_partial",
    "Verif.Remote.Download.C82_sequential_partial",
    "Verif.Remote.Download.C82_only_partial",
    "Verif.Remote.Download.C82_possible"
   ],
   "note": "Proved for both variants if trees that could not be read are not delivered afterwards and data is what was asked for (C82_parallel_partial, C82_sequential_partial, C82_only_partial), and C82_possible without these restrictions. Violations: a tree that cannot be read for once is taken for empty, then stored without its entries, and success is reported (C82_violation_flaky, C82_violation_flaky_sequential, V54); data that is not what was asked for is only counted, so success is reported although the object is missing (C82_violation_wrong, V55)."
  },
  {
   "property": "C83",
   "status": "partial",
   "theorems": [
    "Verif.Remote.Stream.C83_chunks",
    "Verif.Remote.Stream.C83_server_read",
    "Verif.Remote.Stream.C83_read",
    "Verif.Remote.Stream.C83_read_any",
    "Verif.Remote.Stream.C83_dump_partial",
    "Verif.Remote.Stream.C83_write_partial",
    "Verif.Remote.Stream.C83_write_own",
    "Verif.Remote.Stream.C83_write_ends",
    "Verif.Remote.Stream.C83_violation_dump",
    "Verif.Remote.Stream.C83_violation_large",
    "Verif.Remote.Stream.C83_violation_endless",
    "Verif.Remote.Stream.C83_violation_memory"
   ],
   "note": "Proved for the server of this tool without restrictions (C83_chunks, C83_server_read, C83_read, C83_read_any, C83_write_own, C83_write_ends); for all conforming servers for blobs smaller than 2 GiB (C83_write_partial) and dumping from servers that send no empty responses (C83_dump_partial). Violations: with a server that already has the blob and ends the stream, the client goes on for ever, or reports failure for a blob in memory (C83_violation_endless, C83_violation_memory, V56); offsets of 2 GiB and more are wrong, so no server that checks them accepts longer blobs (C83_violation_large, V57); an empty response is taken for the end of the blob, and success is reported (C83_violation_dump, V58)."
  },
  {
   "property": "C84",
   "status": "proved",
   "theorems": [
    "Verif.Storage.C84_closed",
    "Verif.Storage.C84_upload",
    "Verif.Storage.C84_accepted",
    "Verif.Storage.C84_batch",
    "Verif.Storage.C84_batch_accepted",
    "Verif.Storage.C84_missing",
    "Verif.Storage.C84_read",
    "Verif.Storage.C84_session"
   ],
   "note": "C84_closed, C84_upload, C84_accepted, C84_batch, C84_batch_accepted, C84_missing, C84_read, C84_session. For the native protocol; hashes are assumed to be free of collisions on the contents that occur."
  },
  {
   "property": "C85",
   "status": "partial",
   "theorems": [
    "Verif.Root.C85_history",
    "Verif.Root.C85_git",
    "Verif.Root.C85_tree_git",
    "Verif.Root.C85_git_ignoring_partial",
    "Verif.Root.C85_tree_ignoring_partial",
    "Verif.Root.C85_file",
    "Verif.Root.C85_tree_file",
    "Verif.Root.C85_agree",
    "Verif.Root.C85_violated_order",
    "Verif.Root.C85_violated_deep",
    "Verif.Root.C85_violated_link"
   ],
   "note": "C85_history, C85_git, C85_tree_git, C85_file, C85_tree_file, C85_agree for roots ignoring nothing (and file roots ignoring special entries); C85_git_ignoring_partial and C85_tree_ignoring_partial only with nothing to ignore below the second level, as the code violates the property otherwise (C85_violated_order, C85_violated_deep: V59). Places reached through symbolic links are excluded for file roots (C85_violated_link: V60)."
  },
  {
   "property": "C86",
   "status": "proved",
   "theorems": [
    "Verif.Dag.Executor.C86_available",
    "Verif.Dag.Executor.C86_build",
    "Verif.Dag.Executor.C86_defined",
    "Verif.Dag.Executor.C86_sent",
    "Verif.Dag.Executor.C86_reproducible",
    "Verif.Dag.Executor.Example.C86_violated_dispatch"
   ],
   "note": "C86_available, C86_sent, C86_build, C86_defined, C86_reproducible, over all reachable states of the traverser. The assumption on dispatch endpoints can not be dropped: failing to retrieve artifacts is only a warning (C86_violated_dispatch: V61)."
  },
  {
   "property": "C87",
   "status": "partial",
   "theorems": [
    "Verif.Mr.C87_described_partial",
    "Verif.Mr.C87_directory_partial",
    "Verif.Mr.C87_same",
    "Verif.Mr.C87_same_resolved_partial",
    "Verif.Mr.C87_remembered",
    "Verif.Mr.C87_violation_file",
    "Verif.Mr.C87_checked"
   ],
   "note": "C87_described_partial, C87_same, C87_same_resolved_partial, C87_remembered, C87_checked. That the root is a directory holds only if links are to be resolved or the subdirectory names one (C87_directory_partial): a subdirectory that names a file gives a root whose tree identifier is that of a blob (C87_violation_file: V62)."
  },
  {
   "property": "C88",
   "status": "partial",
   "theorems": [
    "Verif.Mr.C88_file_partial",
    "Verif.Mr.C88_distdir_partial",
    "Verif.Mr.C88_listed_partial",
    "Verif.Mr.C88_order",
    "Verif.Mr.C88_violation_lost",
    "Verif.Mr.C88_violation_unknown"
   ],
   "note": "C88_file_partial, C88_distdir_partial, C88_listed_partial, C88_order. Of archives with the same file name all but the last are lost (C88_violation_lost: V63); an absent root for a foreign file is reported although the serve endpoint says it does not have it (C88_violation_unknown: V64)."
  },
  {
   "property": "C89",
   "status": "proved",
   "theorems": [
    "Verif.Mr.C89_offline",
    "Verif.Mr.C89_again",
    "Verif.Mr.C89_again_files",
    "Verif.Mr.C89_rotation"
   ],
   "note": "C89_offline, C89_again, C89_again_files, C89_rotation. The programs are run alone from any state reachable in a pool with others."
  },
  {
   "property": "C90",
   "status": "partial",
   "theorems": [
    "Verif.Mr.C90_described_partial",
    "Verif.Mr.C90_same",
    "Verif.Mr.C90_absent_partial",
    "Verif.Mr.C90_user_partial",
    "Verif.Mr.C90_user_kept",
    "Verif.Mr.C90_violation_present",
    "Verif.Mr.C90_violation_tagged",
    "Verif.Mr.C90_violation_gone"
   ],
   "note": "C90_described_partial, C90_same, C90_user_kept. Absence and tags as wanted only if the commit is in none of the older generations (C90_absent_partial, C90_user_partial): otherwise a root asked for as absent is made present (C90_violation_present: V66), and the user's checkout gets a tag (C90_violation_tagged: V67). Presence of all objects needs that nobody removes git objects or that the commit is in the git cache (C90_violation_gone: V68)."
  },
  {
   "property": "C91",
   "status": "partial",
   "theorems": [
    "Verif.Mr.C91_offline",
    "Verif.Mr.C91_again",
    "Verif.Mr.C91_rotation_partial",
    "Verif.Mr.C91_violation_forgotten"
   ],
   "note": "C91_offline, C91_again. After a rotation only if the commit itself is in the git cache (C91_rotation_partial): a tree obtained by way of the serve endpoint is forgotten (C91_violation_forgotten: V69)."
  },
  {
   "property": "C92",
   "status": "partial",
   "theorems": [
    "Verif.Mr.C92_described",
    "Verif.Mr.C92_kept_partial",
    "Verif.Mr.C92_violation_gone",
    "Verif.Mr.C92_violation_serve"
   ],
   "note": "C92_described. Kept by a tag only if the tree was not in the git cache before (C92_kept_partial); otherwise it is not tagged and may be removed (C92_violation_gone: V71). For answers of the serve endpoint that are not honest, see C92_violation_serve (V70)."
  },
  {
   "property": "C93",
   "status": "partial",
   "theorems": [
    "Verif.Mr.C93_offline",
    "Verif.Mr.C93_cas",
    "Verif.Mr.C93_again",
    "Verif.Mr.C93_rotation",
    "Verif.Mr.C93_violation_absent"
   ],
   "note": "C93_offline, C93_cas, C93_again, C93_rotation. Absent roots: trees in older generations are not handed over (C93_violation_absent: V72)."
  },
  {
   "property": "C94",
   "status": "proved",
   "theorems": [
    "Verif.Mr.C94_described",
    "Verif.Mr.C94_same",
    "Verif.Mr.C94_user"
   ],
   "note": "C94_described, C94_same, C94_user. What a path is, is given by the environment (and may change over time)."
  },
  {
   "property": "C95",
   "status": "partial",
   "theorems": [
    "Verif.MrConfig.C95_exact",
    "Verif.MrConfig.C95_all",
    "Verif.MrConfig.C95_entry",
    "Verif.MrConfig.C95_interactive",
    "Verif.MrConfig.C95_closed",
    "Verif.MrConfig.C95_ends_partial",
    "Verif.MrConfig.C95_violation_alias_cycle",
    "Verif.MrConfig.C95_alias_cycle_all",
    "Verif.MrConfig.C95_violation_layer",
    "Verif.MrConfig.C95_succeeds"
   ],
   "note": "C95_exact, C95_all, C95_entry, C95_interactive, C95_closed, C95_succeeds; C95_ends_partial for descriptions without cyclic aliases, on which just-mr does not end (C95_violation_alias_cycle: V73). With --all, layers naming unknown repositories are written as null (C95_violation_layer: V74)."
  },
  {
   "property": "C96",
   "status": "partial",
   "theorems": [
    "Verif.MrConfig.C96_main",
    "Verif.MrConfig.C96_repos",
    "Verif.MrConfig.C96_repo_partial",
    "Verif.MrConfig.C96_accepted",
    "Verif.MrConfig.C96_interactive",
    "Verif.MrConfig.C96_violation_computed",
    "Verif.MrConfig.C96_violation_ignore_special",
    "Verif.MrConfig.C96_violation_layers",
    "Verif.MrConfig.C96_arguments",
    "Verif.MrConfig.C96_arguments_other",
    "Verif.MrConfig.C96_arguments_accepted",
    "Verif.MrConfig.C96_arguments_layers"
   ],
   "note": "C96_main, C96_repos, C96_accepted, C96_interactive; for arguments given to just itself C96_arguments, C96_arguments_other, C96_arguments_accepted, C96_arguments_layers; C96_repo_partial without computed roots for a target named differently than its module (C96_violation_computed: V75) and without a main repository whose special entries are to be ignored (C96_violation_ignore_special: V76). With setup-env, layers get lost (C96_violation_layers: V77)."
  },
  {
   "property": "C97",
   "status": "partial",
   "theorems": [
    "Verif.MrConfig.C97_explicit_partial",
    "Verif.MrConfig.C97_alias",
    "Verif.MrConfig.C97_total",
    "Verif.MrConfig.C97_violation_alias",
    "Verif.MrConfig.C97_violation_fetch_absent",
    "Verif.MrConfig.C97_violation_file"
   ],
   "note": "C97_explicit_partial for repositories with an explicit description, C97_alias, C97_total. Names of aliases are not respected (C97_violation_alias: V78), --fetch-absent is not for computed roots (C97_violation_fetch_absent: V79), and the mark is ignored for directories (C97_violation_file: V80)."
  },
  {
   "property": "C98",
   "status": "partial",
   "theorems": [
    "Verif.MrRc.C98_locations_partial",
    "Verif.MrRc.C98_logfiles_partial",
    "Verif.MrRc.C98_invocation",
    "Verif.MrRc.C98_lookup_partial",
    "Verif.MrRc.C98_missing",
    "Verif.MrRc.C98_overlay_partial",
    "Verif.MrRc.C98_distdirs_partial",
    "Verif.MrRc.C98_local_partial",
    "Verif.MrRc.C98_depends",
    "Verif.MrRc.C98_dump",
    "Verif.MrRc.C98_given",
    "Verif.MrRc.C98_settings",
    "Verif.MrRc.C98_violation_root",
    "Verif.MrRc.C98_violation_distdir",
    "Verif.MrRc.C98_violation_masked"
   ],
   "note": "C98_overlay_partial, C98_distdirs_partial, C98_local_partial, C98_missing, C98_depends, C98_dump, C98_given, C98_settings, C98_locations_partial, C98_logfiles_partial, C98_invocation, C98_lookup_partial. Partial: stated for locations with a known root; the statement is false in three places: a location with an unknown root is taken relative to the working directory (C98_violation_root: V81), distdirs of the command line are looked at last although the manual says first (C98_violation_distdir: V82), and malformed distdirs are silently ignored once any file is merged (C98_violation_masked: V83)."
  },
  {
   "property": "C99",
   "status": "partial",
   "theorems": [
    "Verif.MrRc.C99_forwarded_partial",
    "Verif.MrRc.C99_precedence",
    "Verif.MrRc.C99_launcher",
    "Verif.MrRc.C99_loglimit",
    "Verif.MrRc.C99_defines",
    "Verif.MrRc.C99_invocation",
    "Verif.MrRc.C99_metadata",
    "Verif.MrRc.C99_do",
    "Verif.MrRc.C99_version_partial",
    "Verif.MrRc.C99_violation_version",
    "Verif.MrRc.C99_violation_serve",
    "Verif.MrRc.C99_violation_instance"
   ],
   "note": "C99_forwarded_partial, C99_precedence, C99_launcher, C99_loglimit, C99_defines, C99_invocation, C99_metadata, C99_do; C99_version_partial. Partial: options are separate words (no --opt=value, no glued short options, no --). False for version and `do serve`: log options are passed on although these subcommands reject them (C99_violation_version, C99_violation_serve: V84); the instance name is dropped if the address is only given to just (C99_violation_instance: V85)."
  },
  {
   "property": "C100",
   "status": "proved",
   "theorems": [
    "Verif.Serve.C100_roundtrip",
    "Verif.Serve.C100_key",
    "Verif.Serve.C100_unknown",
    "Verif.Serve.C100_confined"
   ],
   "note": "C100_roundtrip (client's stored text read on the endpoint gives a configuration with the same observations on all paths), C100_key (same stored text and repository key for every repository reached), C100_unknown (a missing tree refuses the request), C100_confined (arbitrary blobs: only trees in the own or configured git repositories, first one that has it; bindings closed). Parsing of JSON text is not modelled: the theorems speak of the value whose dump the client stored."
  },
  {
   "property": "C101",
   "status": "partial",
   "theorems": [
    "Verif.Serve.C101_dispatch",
    "Verif.Serve.C101_shard",
    "Verif.Serve.C101_violation_port",
    "Verif.Serve.C101_pruned",
    "Verif.Serve.C101_asked_partial",
    "Verif.Serve.C101_key_partial",
    "Verif.Serve.C101_violation_config",
    "Verif.Serve.C101_dispatch_form"
   ],
   "note": "C101_dispatch, C101_dispatch_form, C101_shard (shard of the request is the one described by the client's properties and list; different ones differ), C101_pruned, C101_asked_partial, C101_key_partial (with C100_key: the key computed on the endpoint is the requested one). Partial: parsing of JSON text is a parameter about which only the two texts concerned are assumed to be read back, configurations are JSON values. That no request terminates the endpoint is false: a port with too many digits (C101_violation_port: V89; the same argument terminates just) and a configuration that is no map (C101_violation_config: V88)."
  },
  {
   "property": "C102",
   "status": "partial",
   "theorems": [
    "Verif.Serve.C102_kept_partial",
    "Verif.Serve.C102_value_partial",
    "Verif.Serve.C102_available",
    "Verif.Serve.C102_served_partial",
    "Verif.Serve.C102_again",
    "Verif.Serve.C102_history_partial",
    "Verif.Serve.C102_client",
    "Verif.Serve.C102_client_complete",
    "Verif.Serve.C102_absent",
    "Verif.Serve.C102_replies",
    "Verif.Serve.C102_violation_shard",
    "Verif.Serve.C102_violation_disabled",
    "Verif.Serve.C102_violation_mixed",
    "Verif.Serve.C102_violation_shard_reached"
   ],
   "note": "C102_value_partial, C102_kept_partial, C102_served_partial (an entry is returned if and only if the target can be built), C102_history_partial (all sequences of requests from empty caches), C102_available, C102_again, C102_client, C102_client_complete, C102_absent, C102_replies. Partial: shown for requests with the properties of the endpoint itself, or if the endpoint has no needed target for its own properties; otherwise false, since analysis reads the target cache for the properties of the endpoint: a target known for those only ends in an internal error, which is fatal for the client (C102_violation_shard, C102_violation_shard_reached: V86), and results for other properties are mixed in (C102_violation_mixed: V87). With the write strategy `disable` every target not yet cached ends in an internal error after having been built (C102_violation_disabled: V90)."
  },
  {
   "property": "C103",
   "status": "proved",
   "theorems": [
    "Verif.Serve.C103_file",
    "Verif.Serve.C103_variables",
    "Verif.Serve.C103_asked",
    "Verif.Serve.C103_settled",
    "Verif.Serve.C103_same"
   ],
   "note": "C103_file (which repository is used, and when the request fails), C103_variables (the endpoint reports vars if and only if the target is an export object whose rule reads vars), C103_asked, C103_settled (one pruning step), C103_same (value of an absent target = value computed by any client with the repository). Right entries are the hypothesis established by C102 for the endpoint. JSON parsing is a parameter."
  },
  {
   "property": "C104",
   "status": "partial",
   "theorems": [
    "Verif.Mr.Source.C104_right_partial",
    "Verif.Mr.Source.C104_honest",
    "Verif.Mr.Source.C104_commit",
    "Verif.Mr.Source.C104_commit_unknown",
    "Verif.Mr.Source.C104_archive_partial",
    "Verif.Mr.Source.C104_files",
    "Verif.Mr.Source.C104_check_local",
    "Verif.Mr.Source.C104_alive_partial",
    "Verif.Mr.Source.C104_violation_cached",
    "Verif.Mr.Source.C104_violation_confused",
    "Verif.Mr.Source.C104_violation_name",
    "Verif.Mr.Source.C104_violation_unreadable"
   ],
   "note": "C104_right_partial (replies of concurrently handled requests; missing: requests for archives where the text given as hash is no hash, V92, V93), C104_honest (discharges the assumption on the serve endpoint made in C87 to C92), C104_commit, C104_commit_unknown, C104_archive_partial (missing: content in the git cache, V91), C104_files, C104_check_local, C104_alive_partial (missing: V91, V93, V94). Violations: C104_violation_cached, C104_violation_confused, C104_violation_name, C104_violation_unreadable."
  },
  {
   "property": "C105",
   "status": "proved",
   "theorems": [
    "Verif.Dag.Rebuild.C105_rebuild",
    "Verif.Dag.Rebuild.C105_found",
    "Verif.Dag.Rebuild.C105_sound",
    "Verif.Dag.Rebuild.C105_counted",
    "Verif.Dag.Rebuild.Example.C105_violation_exit"
   ],
   "note": "C105_rebuild, C105_found, C105_sound, C105_counted. Violation (marks of artifacts): C105_violation_exit."
  },
  {
   "property": "C106",
   "status": "partial",
   "theorems": [
    "Verif.Rules.C106_accepted",
    "Verif.Rules.C106_meaning",
    "Verif.Rules.C106_cycle",
    "Verif.Rules.C106_functions",
    "Verif.Rules.C106_defs",
    "Verif.Rules.C106_violation_anonymous"
   ],
   "note": "C106_accepted, C106_meaning, C106_functions, C106_cycle, C106_defs. Violation (targets of anonymous fields): C106_violation_anonymous. Missing: that anonymous fields refer to target fields, which is not tested."
  },
  {
   "property": "C107",
   "status": "partial",
   "theorems": [
    "Verif.Net.C107_host",
    "Verif.Net.C107_path",
    "Verif.Net.C107_error",
    "Verif.Net.C107_match",
    "Verif.Net.C107_wildcard_sound",
    "Verif.Net.C107_wildcard",
    "Verif.Net.C107_best",
    "Verif.Net.C107_ssl",
    "Verif.Net.C107_noproxy",
    "Verif.Net.C107_patterns",
    "Verif.Net.C107_proxy",
    "Verif.Net.C107_proxy_partial",
    "Verif.Net.C107_variables",
    "Verif.Net.C107_compared",
    "Verif.Net.UrlExample.C107_violation_user",
    "Verif.Net.UrlExample.C107_violation_empty",
    "Verif.Net.UrlExample.C107_violation_value"
   ],
   "note": "C107_host, C107_path, C107_error, C107_match, C107_wildcard_sound, C107_wildcard, C107_best, C107_ssl, C107_noproxy, C107_patterns, C107_proxy, C107_variables, C107_compared, C107_proxy_partial. Violations: C107_violation_user, C107_violation_empty, C107_violation_value. Missing: keys with a user for URLs without one, and entries without value (then the settings are not found); that empty values of entries other than the best one have no effect."
  },
  {
   "property": "C108",
   "status": "partial",
   "theorems": [
    "Verif.Evaluate.C108_violation_race",
    "Verif.Evaluate.C108_violation_cached",
    "Verif.Evaluate.C108_violation_unknown",
    "Verif.Evaluate.C108_order",
    "Verif.Evaluate.C108_success_partial",
    "Verif.Evaluate.C108_unique_partial",
    "Verif.Evaluate.C108_cycle",
    "Verif.Evaluate.C108_progress",
    "Verif.Evaluate.C108_ends",
    "Verif.Evaluate.C108_served_partial",
    "Verif.Evaluate.C108_defined_partial",
    "Verif.Evaluate.C108_confirmed"
   ],
   "note": "C108_order, C108_confirmed, C108_success_partial, C108_unique_partial, C108_cycle, C108_progress, C108_ends, C108_served_partial, C108_defined_partial. Violations: C108_violation_race, C108_violation_cached, C108_violation_unknown. All theorems are about executions up to the first data race, and C108_defined_partial says when there can be one. Missing: that absent roots taken from the cache are known to the serve endpoint; absent roots of unknown repositories."
  },
  {
   "property": "C109",
   "status": "partial",
   "theorems": [
    "Verif.AddCas.C109_tree_partial",
    "Verif.AddCas.C109_confined_partial",
    "Verif.AddCas.C109_all_partial",
    "Verif.AddCas.C109_stored_partial",
    "Verif.AddCas.C109_rejects",
    "Verif.AddCas.C109_same",
    "Verif.AddCas.C109_single",
    "Verif.AddCas.C109_accepts_partial",
    "Verif.AddCas.C109_follow_partial",
    "Verif.AddCas.C109_follow_ends_partial",
    "Verif.AddCas.C109_files_changed_violation",
    "Verif.AddCas.C109_shared_violation",
    "Verif.AddCas.C109_other_device_violation",
    "Verif.AddCas.C109_not_owned_violation",
    "Verif.AddCas.C109_escape_violation",
    "Verif.AddCas.C109_wrong_file_violation",
    "Verif.AddCas.C109_cycle_violation"
   ],
   "note": "C109_tree_partial, C109_confined_partial, C109_all_partial, C109_stored_partial, C109_rejects, C109_same, C109_single, C109_accepts_partial, C109_follow_partial, C109_follow_ends_partial. Violations: C109_files_changed_violation, C109_shared_violation, C109_other_device_violation, C109_not_owned_violation, C109_escape_violation, C109_wrong_file_violation, C109_cycle_violation. C109_same needs no assumption on links (default, and ignoring special entries); where links are replaced, the theorems are for directories in which links reach their target without passing other links, as the statement is false otherwise. Missing: acceptance and termination where links are replaced; directories reached over a link given on the command line."
  },
  {
   "property": "C110",
   "status": "partial",
   "theorems": [
    "Verif.InstallCas.C110_installed_partial",
    "Verif.InstallCas.C110_confined",
    "Verif.InstallCas.C110_tree_over_file",
    "Verif.InstallCas.C110_invalid",
    "Verif.InstallCas.C110_run_size_violation",
    "Verif.InstallCas.C110_sub_partial",
    "Verif.InstallCas.C110_sub_found",
    "Verif.InstallCas.C110_archive_partial",
    "Verif.InstallCas.C110_archive_needs_tree",
    "Verif.InstallCas.C110_success",
    "Verif.InstallCas.C110_shown",
    "Verif.InstallCas.C110_remember_partial",
    "Verif.InstallCas.Example.C110_sub_violation",
    "Verif.InstallCas.Example.C110_remember_violation",
    "Verif.InstallCas.Example.C110_archive_violation",
    "Verif.InstallCas.Example.C110_archive_left_violation",
    "Verif.InstallCas.Example.C110_empty_violation",
    "Verif.InstallCas.C110_id",
    "Verif.InstallCas.C110_defaults",
    "Verif.InstallCas.C110_printed",
    "Verif.InstallCas.C110_only",
    "Verif.InstallCas.C110_bracket_violation",
    "Verif.InstallCas.C110_size_violation"
   ],
   "note": "C110_id, C110_defaults, C110_printed, C110_only, C110_invalid, C110_sub_partial, C110_sub_found, C110_installed_partial, C110_confined, C110_tree_over_file, C110_archive_partial, C110_archive_needs_tree, C110_success, C110_shown, C110_remember_partial. Violations: C110_bracket_violation, C110_size_violation, C110_run_size_violation, C110_sub_violation, C110_remember_violation, C110_archive_violation, C110_archive_left_violation, C110_empty_violation. The partial theorems hold for the object at the longest existing part of the path, for archives written without errors, and where copying for --remember succeeds; the statement is false otherwise. Native protocol only; in compatible mode archives can not be made, as trees are always read as Git trees. Undocumented: the type letter l."
  },
  {
   "property": "C111",
   "status": "partial",
   "theorems": [
    "Verif.Remote.Client.C111_result",
    "Verif.Remote.Client.C111_action",
    "Verif.Remote.Client.C111_violation_cached"
   ],
   "note": "C111_result, C111_action: everything but the last sentence of the statement, as equivalences with the calls made. The last sentence is false: C111_violation_cached. Numbers of attempts for which the loop does not end are in C52."
  },
  {
   "property": "C112",
   "status": "partial",
   "theorems": [
    "Verif.MrUpdate.C112_nothing",
    "Verif.MrUpdate.C112_same",
    "Verif.MrUpdate.C112_commit",
    "Verif.MrUpdate.C112_own_partial",
    "Verif.MrUpdate.C112_success_partial",
    "Verif.MrUpdate.C112_head_partial",
    "Verif.MrUpdate.C112_violation_alias",
    "Verif.MrUpdate.C112_violation_slash",
    "Verif.MrUpdate.C112_violation_branch",
    "Verif.MrUpdate.C112_violation_env",
    "Verif.MrUpdate.C112_violation_absent"
   ],
   "note": "C112_nothing, C112_same, C112_commit, C112_own_partial, C112_success_partial, C112_head_partial. Violations: C112_violation_alias, C112_violation_slash, C112_violation_branch, C112_violation_env, C112_violation_absent. The partial theorems hold for repositories that are no aliases, for branches without slash in their name that are the only reference with that last component, and if repositories with the same branch of the same URL take over the same environment variables; the statement is false otherwise. What git ls-remote prints is a parameter."
  },
  {
   "property": "C113",
   "status": "partial",
   "theorems": [
    "Verif.Mirrors.C113_same",
    "Verif.Mirrors.C113_stable",
    "Verif.Mirrors.C113_order_partial",
    "Verif.Mirrors.C113_locations",
    "Verif.Mirrors.C113_all_or_none",
    "Verif.Mirrors.C113_env",
    "Verif.Mirrors.C113_archive",
    "Verif.Mirrors.C113_fetched_partial",
    "Verif.Mirrors.C113_source",
    "Verif.Mirrors.C113_commit",
    "Verif.Mirrors.C113_commit_fetched_partial",
    "Verif.Mirrors.C113_violation_empty",
    "Verif.Mirrors.C113_violation_wrong",
    "Verif.Mirrors.C113_violation_stale",
    "Verif.Mirrors.C113_violation_path"
   ],
   "note": "C113_same, C113_stable, C113_order_partial, C113_locations, C113_all_or_none, C113_env, C113_archive, C113_fetched_partial, C113_source, C113_commit, C113_commit_fetched_partial. Violations: C113_violation_empty, C113_violation_wrong, C113_violation_stale, C113_violation_path. The partial theorems are without the empty text as preferred host name, for locations that answer with the right content or not at all, and for git repositories whose URL is no path; the statement is false otherwise. The host name found in a URL by libcurl and the answers of locations are parameters."
  },
  {
   "property": "C114",
   "status": "partial",
   "theorems": [
    "Verif.Cli.C114_workspace",
    "Verif.Cli.C114_config",
    "Verif.Cli.C114_name",
    "Verif.Cli.C114_explicit",
    "Verif.Cli.C114_default",
    "Verif.Cli.C114_absent",
    "Verif.Cli.C114_current",
    "Verif.Cli.C114_module_partial",
    "Verif.Cli.C114_same",
    "Verif.Cli.Example.C114_violation_directory"
   ],
   "note": "C114_workspace, C114_current, C114_module_partial, C114_name, C114_explicit, C114_default, C114_absent, C114_config, C114_same. Violation: C114_violation_directory. The partial theorem is for roots where nothing but files has the name of target files; the statement is false otherwise. Paths are lists of names without symbolic links."
  },
  {
   "property": "C115",
   "status": "partial",
   "theorems": [
    "Verif.MrFetch.C115_files_partial",
    "Verif.MrFetch.C115_nothing_else_partial",
    "Verif.MrFetch.C115_obtained_partial",
    "Verif.MrFetch.C115_trees_partial",
    "Verif.MrFetch.C115_no_directory",
    "Verif.MrFetch.C115_succeeds",
    "Verif.MrFetch.C115_serve_partial",
    "Verif.MrFetch.C115_usable_partial",
    "Verif.MrFetch.C115_source_partial",
    "Verif.MrFetch.Example.C115_violation_main",
    "Verif.MrFetch.Example.C115_violation_layer",
    "Verif.MrFetch.Example.C115_violation_clash",
    "Verif.MrFetch.Example.C115_violation_twin",
    "Verif.MrFetch.Example.C115_violation_outside",
    "Verif.MrFetch.Example.C115_violation_serve"
   ],
   "note": "C115_files_partial, C115_nothing_else_partial, C115_obtained_partial, C115_trees_partial, C115_no_directory, C115_succeeds, C115_usable_partial, C115_source_partial, C115_serve_partial. Violations: C115_violation_main, C115_violation_layer, C115_violation_clash, C115_violation_twin, C115_violation_outside, C115_violation_serve. The partial theorems are without a main repository in the configuration, or with one on the command line; the files are there if the same content has the same name and the other way round; the statement is false otherwise."
  },
  {
   "property": "C116",
   "status": "partial",
   "theorems": [
    "Verif.Request.C116_chosen_partial",
    "Verif.Request.C116_refused_partial",
    "Verif.Request.C116_order",
    "Verif.Request.C116_provides",
    "Verif.Request.C116_complete",
    "Verif.Request.Example.C116_violation_garbage",
    "Verif.Request.Example.C116_violation_rest",
    "Verif.Request.Example.C116_violation_large"
   ],
   "note": "C116_chosen_partial, C116_refused_partial, C116_order, C116_provides, C116_complete. Violations: C116_violation_garbage, C116_violation_rest, C116_violation_large. The partial theorems are for requests of one of the forms of the manual; anything else should be refused, but is not."
  },
  {
   "property": "C117",
   "status": "proved",
   "theorems": [
    "Verif.Dump.C117_nodes",
    "Verif.Dump.C117_closed",
    "Verif.Dump.C117_anonymous",
    "Verif.Dump.C117_unique"
   ],
   "note": "C117_nodes, C117_closed, C117_anonymous, C117_unique. The exact contents need identifiers to be different for different nodes (hash collisions); that none is missing does not."
  },
  {
   "property": "C118",
   "status": "partial",
   "theorems": [
    "Verif.JsonText.C118_pretty",
    "Verif.JsonText.C118_truncated",
    "Verif.JsonText.C118_own_depth",
    "Verif.JsonText.C118_lines",
    "Verif.JsonText.C118_pruned",
    "Verif.JsonText.C118_lists",
    "Verif.JsonText.C118_only",
    "Verif.JsonText.C118_distinct",
    "Verif.JsonText.C118_ends",
    "Verif.JsonText.C118_short",
    "Verif.JsonText.C118_limit_partial",
    "Verif.JsonText.C118_longest",
    "Verif.JsonText.Example.C118_violation_long"
   ],
   "note": "C118_lists, C118_only, C118_distinct, C118_lines, C118_own_depth, C118_pretty, C118_truncated, C118_ends, C118_short, C118_limit_partial, C118_longest, C118_pruned. Partial: the limit is exceeded if the outermost level alone is longer (C118_violation_long, V135)."
  },
  {
   "property": "C119",
   "status": "proved",
   "theorems": [
    "Verif.Dump.C119_targets",
    "Verif.Dump.C119_shown",
    "Verif.Dump.C119_anonymous"
   ],
   "note": "C119_targets, C119_shown, C119_anonymous."
  },
  {
   "property": "C120",
   "status": "partial",
   "theorems": [
    "Verif.Auth.C120_build",
    "Verif.Auth.C120_error",
    "Verif.Auth.C120_secure",
    "Verif.Auth.C120_client",
    "Verif.Auth.C120_server",
    "Verif.Auth.C120_pair_partial",
    "Verif.Auth.C120_offered",
    "Verif.Auth.C120_just_mr",
    "Verif.Auth.C120_violation_any_client",
    "Verif.Auth.C120_client_access_if_required",
    "Verif.Auth.C120_violation_mtls",
    "Verif.Auth.C120_violation_empty",
    "Verif.Auth.C120_violation_no_ca"
   ],
   "note": "C120_build, C120_error, C120_secure, C120_client, C120_server, C120_pair_partial, C120_offered, C120_just_mr, C120_client_access_if_required; C120_violation_any_client, C120_violation_mtls, C120_violation_empty, C120_violation_no_ca."
  }
 ]
}