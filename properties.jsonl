{"id": "C01", "title": "Layered map lookup and iteration agree", "statement": "However a map value was put together from overlays, looking up a key yields the value of the topmost overlay that binds it, and iterating the map visits every bound key exactly once, in strictly ascending order, with exactly the value lookup returns.", "quantifier": "all finite towers of overlays (any depth, any contents, each layer given eagerly or as a nested map), all keys", "why_tests_cant": "The set of overlay towers is infinite; the sorted merge and the recursive lookup are two different algorithms whose agreement depends on every interleaving of keys.", "anchors": ["src/buildtool/build_engine/expression/linked_map.hpp:LinkedMap::Find", "src/buildtool/build_engine/expression/linked_map.hpp:LinkedMap::ComputeSortedItems"]}
{"id": "C02", "title": "map_union is right-biased for every list", "statement": "`map_union` of a list of maps binds a key iff some map of the list binds it, and then to the value of the last map binding it, regardless of how the implementation splits the list recursively.", "quantifier": "all lists of maps, all keys", "why_tests_cant": "Divide-and-conquer over arbitrary list lengths; tests only sample a few lengths and overlaps.", "anchors": ["src/buildtool/build_engine/expression/evaluator.cpp:Union", "src/buildtool/build_engine/expression/evaluator.cpp:UnionExpr"]}
{"id": "C03", "title": "disjoint_map_union succeeds exactly on compatible maps", "statement": "`disjoint_map_union` succeeds iff no key is bound to two different values by maps of the list; on success the result binds exactly the keys bound by some map with that common value, so permuting the list changes neither success nor result; a reported conflict key is really in conflict.", "quantifier": "all lists of maps and all permutations of them", "why_tests_cant": "Order independence is a statement about all permutations of all lists; the merge scan has boundary cases at every interleaving of key orders.", "anchors": ["src/buildtool/build_engine/expression/evaluator.cpp:Union", "src/buildtool/build_engine/expression/linked_map.hpp:LinkedMap::FindConflictingDuplicate"]}
{"id": "C04", "title": "Configuration pruning keeps exactly the requested variables", "statement": "Pruning a configuration to a set of variables yields a configuration that answers every requested variable as before (unset ones as null), binds nothing else, is idempotent, and two configurations agreeing on the variables prune to the identical configuration; updating overrides exactly the updated variables.", "quantifier": "all configurations, all variable lists, all updates", "why_tests_cant": "Cache keys of targets are pruned configurations, so equality must hold for every pair of configurations.", "anchors": ["src/buildtool/build_engine/expression/configuration.hpp:Configuration::Prune", "src/buildtool/build_engine/expression/configuration.hpp:Configuration::Update"]}
{"id": "C05", "title": "Expression evaluation only depends on the variables it mentions", "statement": "Evaluating an expression in two environments that agree on all variables the expression can look up gives the same value or the same failure.", "quantifier": "all expressions of the modelled language, all pairs of environments", "why_tests_cant": "Quantifies over all programs and all pairs of environments; incremental and cached builds rely on it.", "anchors": ["src/buildtool/build_engine/expression/evaluator.cpp:Evaluate", "src/buildtool/build_engine/expression/evaluator.cpp:VarExpr"]}
{"id": "C06", "title": "join_cmd quoting survives the shell", "statement": "The string produced by `join_cmd` from a list of words is split by a POSIX shell into exactly that list of words, for any characters including quotes, spaces, newlines, dollars and empty words.", "quantifier": "all lists of words", "why_tests_cant": "All strings; one unquoted character class would be a command injection.", "anchors": ["src/buildtool/build_engine/expression/evaluator.cpp:ShellQuote", "src/buildtool/build_engine/expression/evaluator.cpp:JoinCmdExpr"]}
{"id": "C07", "title": "nub_left and nub_right", "statement": "`nub_right` returns a list without duplicates containing exactly the elements of the input, ordered by last occurrence; `nub_left` likewise by first occurrence.", "quantifier": "all lists of values", "why_tests_cant": "All lists with all duplicate patterns.", "anchors": ["src/buildtool/build_engine/expression/evaluator.cpp:NubRight", "src/buildtool/build_engine/expression/evaluator.cpp:NubLeft"]}
{"id": "C08", "title": "enumerate preserves list order", "statement": "Iterating (in key order) over the map produced by `enumerate` yields the entries of the original list in the original order, for every list of at most 10^10 entries; the same zero-padded keys fix the layering order of tree overlays.", "quantifier": "all lists up to the padding capacity", "why_tests_cant": "Lexicographic vs numeric order of padded numbers breaks only at digit-count boundaries, up to huge sizes.", "anchors": ["src/buildtool/build_engine/expression/evaluator.cpp:Enumerate", "src/buildtool/common/tree_overlay.hpp:TreeOverlay::AsInputs"]}
{"id": "C09", "title": "Value identifiers identify values", "statement": "If two values of the expression language have the same identifier (content hash), and the hash function has no collision among the finitely many strings hashed for these two values, the values are equal; equal values have equal identifiers.", "quantifier": "all pairs of values", "why_tests_cant": "Ambiguity in a serialisation shows only on adversarial pairs of values.", "anchors": ["src/buildtool/build_engine/expression/expression.cpp:Expression::ComputeHash", "src/buildtool/build_engine/expression/expression.hpp:Expression::operator=="]}
{"id": "C10", "title": "Quasi-quotation rebuilds the quoted literal", "statement": "`quasi-quote` of a literal that contains no unquoting map returns the literal unchanged; a list keeps its length.", "quantifier": "all literals", "why_tests_cant": "All nestings of lists and maps; the defect sits in one combination only.", "anchors": ["src/buildtool/build_engine/expression/evaluator.cpp:ExpandQuasiQuote", "src/buildtool/build_engine/expression/evaluator.cpp:ExpandQuasiQuoteListEntry"]}
{"id": "C11", "title": "Chunking a file loses nothing and stays in bounds", "statement": "Splitting a file delivers chunks whose concatenation is the file; no chunk is empty, none exceeds the maximum size, all but the last have at least the minimum size; no access outside the read buffer happens, and the cut points do not depend on how the stream delivers the bytes or on the buffer size.", "quantifier": "all files (byte sequences), all average chunk sizes, all 256-entry hash tables", "why_tests_cant": "Boundary errors at buffer refills only show for special file sizes and contents; files are unbounded.", "anchors": ["src/buildtool/storage/file_chunker.cpp:FileChunker::NextChunk", "src/buildtool/storage/file_chunker.cpp:FileChunker::NextChunkBoundary"]}
{"id": "C12", "title": "Splitting and splicing a large object are inverse", "statement": "Splitting a stored object and splicing the parts gives back the object's bytes; splicing with missing or wrong parts is reported as an error and never stores wrong content under a digest.", "quantifier": "all objects, all chunk lists given to splice, all storage contents", "why_tests_cant": "All contents and all adversarial part lists.", "anchors": ["src/buildtool/storage/large_object_cas.tpp:LargeObjectCAS::Split", "src/buildtool/storage/large_object_cas.tpp:LargeObjectCAS::TrySplice", "src/buildtool/storage/large_object_cas.tpp:LargeObjectCAS::Splice"]}
{"id": "C13", "title": "Chunks are never split again", "statement": "Splitting one chunk of a split file (as a file of its own) yields that chunk alone, so large-object entries never nest and removing a split file during compactification leaves it reconstructible from plain blobs.", "quantifier": "all files, all chunks of them", "why_tests_cant": "Depends on the rolling hash being restarted at every chunk for all contents.", "anchors": ["src/buildtool/storage/file_chunker.cpp:FileChunker::NextChunkBoundary", "src/buildtool/storage/compactifier.cpp:SplitLarge"]}
{"id": "C14", "title": "Garbage collection never loses recently used entries", "statement": "An entry that was read or written through the cache since the last garbage collection is still found after up to (number of generations - 1) further collections without use, together with everything it refers to.", "quantifier": "all histories of stores, lookups and garbage collections, all numbers of generations", "why_tests_cant": "Histories are unbounded; loss shows only after particular sequences of uses and rotations.", "anchors": ["src/buildtool/storage/garbage_collector.cpp:GarbageCollector::TriggerGarbageCollection", "src/buildtool/storage/uplinker.cpp:GlobalUplinker"]}
{"id": "C15", "title": "Garbage collection is crash-safe at every step", "statement": "If garbage collection is interrupted after any of its renames, every object outside the oldest generation is still found, no object is found with different content, and a later collection works from any interrupted layout, again removing nothing but the oldest generation.", "quantifier": "all crash points of all collection runs, all cache contents, all left-over directories", "why_tests_cant": "Crash points are not reachable by unit tests.", "anchors": ["src/buildtool/storage/garbage_collector.cpp:GarbageCollector::TriggerGarbageCollection"]}
{"id": "C16", "title": "Uplinking keeps every generation closed under references", "statement": "After any interleaved prefix of the copy operations made by a lookup (crash point), the youngest generation contains, with each tree all its entries, with each action-cache key its result and outputs, with each target-cache key its entry, artifacts and implied exports, and with each large-object entry all its parts.", "quantifier": "all cache contents, all lookups, all crash points in a lookup", "why_tests_cant": "Closure has to hold at every intermediate step and for all reference graphs.", "anchors": ["src/buildtool/storage/local_ac.tpp:LocalAC::LocalUplinkEntry", "src/buildtool/storage/target_cache.tpp:TargetCache::LocalUplinkEntry", "src/buildtool/storage/local_cas.tpp:LocalCAS::LocalUplinkTree"]}
{"id": "C17", "title": "Large-object entries are promoted from every generation", "statement": "A lookup of a large object present only as a split entry in an older generation promotes that entry and its parts to the youngest generation.", "quantifier": "all numbers of generations, all generations an entry may live in", "why_tests_cant": "Fails only when the entry is not in the youngest generation and no earlier generation holds it.", "anchors": ["src/buildtool/storage/uplinker.cpp:GlobalUplinker::UplinkLargeBlob", "src/buildtool/storage/large_object_cas.tpp:LargeObjectCAS::LocalUplink"]}
{"id": "C18", "title": "Compactification preserves every readable object", "statement": "Running compactification, interrupted at any point or completed, never makes a valid object unreadable: each object readable before (directly or by splicing) is readable with the same bytes afterwards, and only files whose names are not valid digests are dropped.", "quantifier": "all cache contents, all thresholds, all crash points", "why_tests_cant": "All storage states and interruption points.", "anchors": ["src/buildtool/storage/compactifier.cpp:Compactifier::RemoveInvalid", "src/buildtool/storage/compactifier.cpp:Compactifier::RemoveSpliced", "src/buildtool/storage/compactifier.cpp:Compactifier::SplitLarge", "src/buildtool/storage/garbage_collector.cpp:GarbageCollector::Compactify"]}
{"id": "C19", "title": "Content-addressed storage only ever returns matching content", "statement": "Whatever sequence of store, lookup, splice, uplink and collection operations happened, the content found under a digest hashes to that digest, and once a digest is found with some content it never changes while found.", "quantifier": "all operation histories", "why_tests_cant": "Histories are unbounded.", "anchors": ["src/buildtool/file_system/object_cas.hpp:ObjectCAS", "src/buildtool/file_system/file_storage.hpp:FileStorage", "src/buildtool/storage/local_cas.tpp"]}
{"id": "C20", "title": "Action-cache hits are complete", "statement": "If an action-cache lookup returns a result, every output blob, tree (with its whole content) and symlink named in it is readable from the youngest generation.", "quantifier": "all cache states reachable by any history, all action digests", "why_tests_cant": "Requires an invariant over all histories including collection between store and lookup.", "anchors": ["src/buildtool/storage/local_ac.tpp:LocalAC::CachedResult", "src/buildtool/storage/local_ac.tpp:LocalAC::LocalUplinkEntry"]}
{"id": "C21", "title": "Failed executions are never served from the cache", "statement": "A local action execution is answered from the action cache only by a result that has exit code 0 and names all requested outputs; a result obtained with caching disabled is never stored.", "quantifier": "all cache contents, all actions, all cache modes", "why_tests_cant": "All cache states including entries stored by failing runs.", "anchors": ["src/buildtool/execution_api/local/local_action.cpp:LocalAction::Execute", "src/buildtool/execution_api/local/local_action.cpp:LocalAction::Run", "src/buildtool/execution_api/utils/outputscheck.hpp"]}
{"id": "C22", "title": "Actions run at most once and only after their inputs", "statement": "During a parallel build every action is started at most once, and only after every input artifact has become available (uploaded, or produced by its generating action having finished).", "quantifier": "all action graphs, all thread interleavings", "why_tests_cant": "Schedules cannot be enumerated by tests.", "anchors": ["src/buildtool/execution_engine/traverser/traverser.hpp:Traverser", "src/buildtool/execution_engine/dag/dag.hpp:DependencyGraph::ActionNode"]}
{"id": "C23", "title": "Everything requested gets built", "statement": "When a traversal finishes without any failure, every requested artifact is available and every action on its dependency cone has run; no wake-up is lost between the thread that requires an action and the threads that finish its inputs.", "quantifier": "all action graphs, all requested sets, all thread interleavings", "why_tests_cant": "Lost wake-ups are races; only an all-schedules argument excludes them.", "anchors": ["src/buildtool/execution_engine/traverser/traverser.hpp:Traverser::Traverse", "src/buildtool/execution_engine/traverser/traverser.hpp:Traverser::NotifyAvailable"]}
{"id": "C24", "title": "Nothing else gets built", "statement": "An action is executed only if some requested artifact transitively depends on it.", "quantifier": "all action graphs, all requested sets, all schedules", "why_tests_cant": "All graphs and schedules.", "anchors": ["src/buildtool/execution_engine/traverser/traverser.hpp:Traverser::Visit"]}
{"id": "C25", "title": "Each analysis key is computed once", "statement": "In the asynchronous map, the value creator of a key is started at most once, a key never becomes both ready and failed, and its value never changes once set.", "quantifier": "all request patterns, all interleavings of requesting and finishing tasks", "why_tests_cant": "Races between registration and completion.", "anchors": ["src/buildtool/multithreading/async_map_node.hpp:AsyncMapNode", "src/buildtool/multithreading/async_map.hpp:AsyncMap", "src/buildtool/multithreading/async_map_consumer.hpp:AsyncMapConsumer::ConsumeAfterKeysReady"]}
{"id": "C26", "title": "Consumers run exactly once, after all their keys, and are never forgotten", "statement": "A consumer waiting on a list of keys is run at most once and only when all keys (with repetitions) are ready; when the system is quiescent, every consumer all of whose keys are ready has run and every consumer with a failed key has had its failure handler called.", "quantifier": "all consumer lists, all interleavings", "why_tests_cant": "Lost wake-ups and double calls are schedule dependent.", "anchors": ["src/buildtool/multithreading/async_map_consumer.hpp:AsyncMapConsumer::ConsumeAfterKeysReady", "src/buildtool/multithreading/async_map_node.hpp:AsyncMapNode::AddOrQueueAwaitingTask"]}
{"id": "C27", "title": "Cycle detection is sound and complete", "statement": "When evaluation got stuck, a reported cycle is a real cycle in the wait-for relation that is reachable from the requested key, a cycle is reported if one exists, and the search never accesses memory out of bounds and terminates.", "quantifier": "all finite wait-for graphs", "why_tests_cant": "All graphs; depth-first search with an explicit stack has many boundary cases.", "anchors": ["src/buildtool/multithreading/async_map_consumer.hpp:AsyncMapConsumer::DetectCycle"]}
{"id": "C28", "title": "Task system finishes exactly when no work is left", "statement": "Waiting for the task system to finish returns only when no task is queued or running and no such task can appear anymore; every queued task is run exactly once unless shut down.", "quantifier": "all numbers of threads, all task trees, all interleavings incl. work stealing", "why_tests_cant": "Concurrency.", "anchors": ["src/buildtool/multithreading/task_system.cpp:TaskSystem", "src/buildtool/multithreading/notification_queue.hpp:NotificationQueue", "src/buildtool/multithreading/notification_queue.hpp:WaitableZeroCounter"]}
{"id": "C29", "title": "Analysis output does not depend on thread scheduling", "statement": "The list of actions, blobs and trees handed over from analysis is the same for any number of threads and any order in which targets were analysed, and contains every identifier exactly once.", "quantifier": "all sets of analysed targets, all insertion orders, all shard counts", "why_tests_cant": "All permutations of insertion orders.", "anchors": ["src/buildtool/build_engine/target_map/result_map.hpp:ResultTargetMap::ToResult"]}
{"id": "C30", "title": "Tree overlay is path-wise right-biased", "statement": "A (non-disjoint) overlay of two trees has, at every path, the later tree's entry if it has one there, a merged directory where both have directories, and the earlier tree's entry otherwise (unless shadowed by a non-directory).", "quantifier": "all pairs of trees of any depth, all paths", "why_tests_cant": "All trees.", "anchors": ["src/buildtool/execution_engine/tree_operations/tree_operations_utils.cpp:CreateTreeOverlayMap", "src/buildtool/execution_engine/tree_operations/tree_operations_utils.cpp:ComputeTreeOverlay"]}
{"id": "C31", "title": "Disjoint tree overlay is symmetric and fails exactly on conflicts", "statement": "A disjoint overlay of two trees succeeds iff no path carries different non-mergeable entries in the two trees; on success swapping the arguments gives the same tree and both inputs are contained in the result.", "quantifier": "all pairs of trees", "why_tests_cant": "All trees.", "anchors": ["src/buildtool/execution_engine/tree_operations/tree_operations_utils.cpp:CreateTreeOverlayMap"]}
{"id": "C32", "title": "Git tree objects round-trip and are canonical", "statement": "Serialising a directory listing as a git tree and parsing it gives the listing back; the serialised bytes do not depend on the order entries were supplied and are in git's canonical order.", "quantifier": "all directory listings with valid names and hashes", "why_tests_cant": "All names (incl. prefixes of each other, which is where git's order differs) and all orders.", "anchors": ["src/buildtool/file_system/git_repo.cpp:GitRepo::CreateShallowTree", "src/buildtool/file_system/git_repo.cpp:GitRepo::CreateTree", "src/buildtool/file_system/git_repo.cpp:GitRepo::ReadTreeData"]}
{"id": "C33", "title": "Reading a git tree keeps every entry's type", "statement": "Reading a tree for overlay computation returns each name with the object type recorded for that name.", "quantifier": "all trees, including those where several names share one content hash", "why_tests_cant": "Fails only for trees in which the same content occurs with different types.", "anchors": ["src/buildtool/execution_engine/tree_operations/tree_operations_utils.cpp:ParseGitTree"]}
{"id": "C34", "title": "Directory trees are built exactly from non-conflicting paths", "statement": "Building a directory tree from named artifacts succeeds iff all paths are relative, contain no dot segments after normalisation and no path is equal to or below another one; on success looking up a path gives exactly the artifact given for it, independently of the order.", "quantifier": "all lists of (path, artifact) pairs and their permutations", "why_tests_cant": "All path sets.", "anchors": ["src/buildtool/execution_api/bazel_msg/directory_tree.cpp:DirectoryTree::AddArtifact", "src/buildtool/execution_api/bazel_msg/directory_tree.cpp:DirectoryTree::FromNamedArtifacts"]}
{"id": "C35", "title": "Symlink resolution yields confined trees", "statement": "Resolving a tree completely gives a tree with no symlinks, where each path holds what following the links inside the original tree would give; partial resolution leaves only non-upwards links; links leaving the root are an error.", "quantifier": "all trees with symlinks, all resolution modes", "why_tests_cant": "All link graphs.", "anchors": ["src/buildtool/file_system/symlinks/resolve_symlinks_map.cpp"]}
{"id": "C36", "title": "Uploads keep the remote storage closed at every instant", "statement": "While a tree is uploaded with the native protocol, at every point (any crash, any batch boundary) the remote storage contains with each tree object all objects below it, provided it did before; after success the whole tree is available.", "quantifier": "all trees, all subsets already available, all batch boundaries, all crash points", "why_tests_cant": "Crash points and all sharing patterns of subtrees.", "anchors": ["src/buildtool/execution_api/common/common_api.cpp:CommonUploadBlobTree", "src/buildtool/execution_engine/executor/executor.hpp:ExecutorImpl::VerifyOrUploadTree", "src/buildtool/execution_api/common/common_api.hpp:UpdateContainerAndUpload"]}
{"id": "C37", "title": "Staging conflicts are detected exactly", "statement": "The conflict check for artifact stages reports a conflict iff one path is absolute or leads upwards, two entries are at the same path, one entry is placed below another, or the root entry `.` is not alone.", "quantifier": "all sets of staging paths", "why_tests_cant": "All sets of paths; string order vs. path order matters.", "anchors": ["src/buildtool/build_engine/target_map/utils.cpp:BuildMaps::Target::Utils::tree_conflict", "src/buildtool/build_engine/target_map/utils.cpp:BuildMaps::Target::Utils::artifacts_tree"]}
{"id": "C38", "title": "TREE arguments never drop entries silently", "statement": "Constructing a tree from a map of paths either reports a conflict or yields a tree in which every entry of the map is present at its path.", "quantifier": "all maps from paths to artifacts", "why_tests_cant": "Only path pairs that coincide after normalisation expose the problem.", "anchors": ["src/buildtool/build_engine/target_map/target_map.cpp:ExprToTree"]}
{"id": "C39", "title": "Path normalisation is canonical", "statement": "Normalising a path is idempotent and normalises two spellings of the same location (dots, double slashes, trailing slashes, `x/..`) identically without changing the location denoted.", "quantifier": "all path strings", "why_tests_cant": "All path strings.", "anchors": ["src/utils/cpp/path.hpp:ToNormalPath"]}
{"id": "C40", "title": "Path confinement checks are exact", "statement": "A path is accepted as non-upwards iff following its segments from its directory never ends up above it, and accepted as confined to a tree iff, starting at the directory of the link, it ends inside the tree root; absolute paths are never accepted.", "quantifier": "all paths and all link locations", "why_tests_cant": "All path strings.", "anchors": ["src/utils/cpp/path.hpp:PathIsNonUpwards", "src/utils/cpp/path.hpp:PathIsConfined"]}
{"id": "C41", "title": "Relative target references never escape the root silently", "statement": "A relative target reference `[\"./\", relmodule, name]` either names the module obtained by following relmodule from the current module or is rejected when it leads above the root module.", "quantifier": "all current modules and relative modules", "why_tests_cant": "Fails for a single boundary (exactly one level above the root).", "anchors": ["src/buildtool/build_engine/base_maps/entity_name.hpp:ParseEntityNameRelative"]}
{"id": "C42", "title": "Target names survive serialisation", "statement": "Serialising a target name (normal, file, tree, glob, symlink) and parsing it, in any repository or module, gives back the same target; names are compared by a strict total order.", "quantifier": "all target names, all parsing contexts", "why_tests_cant": "All names.", "anchors": ["src/buildtool/build_engine/base_maps/entity_name_data.hpp:EntityName::ToJson", "src/buildtool/build_engine/base_maps/entity_name.hpp:ParseEntityName"]}
{"id": "C43", "title": "Working-directory-relative paths denote the same file", "statement": "Rebasing a path relative to the working directory of an action and appending the result to the working directory denotes the original location.", "quantifier": "all working directories and output paths", "why_tests_cant": "All paths.", "anchors": ["src/utils/cpp/path_rebase.hpp:RebasePathStringRelativeTo"]}
{"id": "C44", "title": "Digests survive the wire format", "statement": "Converting a digest to the remote-execution wire format and back gives the same digest including whether it names a tree; blob and tree digests never collide on the wire; malformed hashes are rejected.", "quantifier": "all digests of both protocols, all wire strings", "why_tests_cant": "All strings.", "anchors": ["src/buildtool/common/artifact_digest_factory.cpp", "src/buildtool/common/bazel_digest_factory.cpp", "src/buildtool/crypto/hash_info.cpp"]}
{"id": "C45", "title": "Object infos survive their textual form", "statement": "Printing an object info and parsing it back gives the same digest, size and type; parsing never crashes and accepts only what printing can produce up to failure marks.", "quantifier": "all object infos, all strings", "why_tests_cant": "All strings.", "anchors": ["src/buildtool/common/artifact.hpp:Artifact::ObjectInfo"]}
{"id": "C46", "title": "Byte-stream resource names round-trip", "statement": "A resource name built for reading or writing a blob is parsed by the server into the same instance name, hash and size.", "quantifier": "all instance names without reserved fragments and without empty path components, all digests, all uuids", "why_tests_cant": "All strings.", "anchors": ["src/buildtool/execution_api/common/bytestream_utils.cpp:ByteStreamUtils"]}
{"id": "C47", "title": "Action identifiers determine the action", "statement": "Two actions with the same identifier have the same command, outputs, working directory, environment, inputs and execution parameters, if the hash has no collision among the finitely many strings hashed for them.", "quantifier": "all pairs of actions", "why_tests_cant": "Serialisation ambiguity shows only on adversarial pairs.", "anchors": ["src/buildtool/build_engine/target_map/utils.cpp:BuildMaps::Target::Utils::createAction", "src/buildtool/build_engine/target_map/utils.cpp:hash_vector"]}
{"id": "C48", "title": "Automaton minimisation merges exactly the indistinguishable states", "statement": "The minimiser maps two states to the same representative iff no input word distinguishes them.", "quantifier": "all finite partial automata, all pairs of states, all words", "why_tests_cant": "All automata; words are unbounded.", "anchors": ["src/utils/automata/dfa_minimizer.hpp:DFAMinimizer"]}
{"id": "C49", "title": "Repository keys depend on content only", "statement": "Two repositories get the same cache key iff their content and that of everything reachable by following local names is indistinguishable; global names, order of declaration and duplication of equal repositories do not matter; a key exists iff everything reachable is content-fixed.", "quantifier": "all repository configurations", "why_tests_cant": "All graphs of repositories, including cyclic ones.", "anchors": ["src/buildtool/common/repository_config.cpp:RepositoryConfig::DeduplicateRepo", "src/buildtool/common/repository_config.cpp:RepositoryConfig::BuildGraphForRepository"]}
{"id": "C50", "title": "Batched uploads deliver every blob within the size limit", "statement": "Feeding blobs to the upload container uploads each of them, and no batch exceeds the transfer limit unless it consists of one single larger blob.", "quantifier": "all sequences of blobs of all sizes", "why_tests_cant": "All sequences.", "anchors": ["src/buildtool/execution_api/common/common_api.hpp:UpdateContainerAndUpload"]}
{"id": "C51", "title": "Missing-blob queries never claim absent blobs present", "statement": "Every digest the remote does not have is reported missing, whatever subset of requests fails, and requests are split so that each digest is asked at most once per round within the message limit.", "quantifier": "all digest sets, all server behaviours, all message limits", "why_tests_cant": "All failure patterns.", "anchors": ["src/buildtool/execution_api/remote/bazel/bazel_cas_client.cpp:BazelCasClient::FindMissingBlobs", "src/buildtool/execution_api/remote/bazel/bazel_cas_client.cpp:InitRequest"]}
{"id": "C52", "title": "Retry back-off stays within the configured limits", "statement": "An operation is attempted at most the configured number of times, stops at the first success or fatal error, and the back-off between attempts never exceeds the configured maximum and never decreases.", "quantifier": "all retry configurations, all result sequences", "why_tests_cant": "All 32-bit configurations; overflow.", "anchors": ["src/buildtool/common/remote/retry.cpp:WithRetry", "src/buildtool/common/remote/retry_config.hpp:RetryConfig::GetSleepTimeSeconds"]}
{"id": "C53", "title": "Running operations stay visible", "statement": "The execution service's operation cache never drops an operation that is not done, an operation that was just set is found with its latest state, and collection only removes the oldest finished operations.", "quantifier": "all histories of set/query calls, all thresholds", "why_tests_cant": "Histories are unbounded.", "anchors": ["src/buildtool/execution_api/execution_service/operation_cache.cpp:OperationCache"]}
{"id": "C54", "title": "Failure marks propagate exactly", "statement": "An artifact is marked as failed iff some (may-fail) action on its dependency cone exited non-zero; an action not allowed to fail that exits non-zero makes the build fail.", "quantifier": "all action graphs, all exit codes", "why_tests_cant": "All graphs.", "anchors": ["src/buildtool/execution_engine/executor/executor.hpp:ExecutorImpl::ParseResponse", "src/buildtool/execution_engine/executor/executor.hpp:ExecutorImpl::SaveObjectInfo"]}
{"id": "C55", "title": "Targets only see their effective configuration", "statement": "A target's analysis result is the same for any two configurations agreeing on the variables the result reports; transitions fix variables for dependencies only.", "quantifier": "all target graphs of the modelled kind, all pairs of configurations", "why_tests_cant": "All pairs of configurations and all target graphs.", "anchors": ["src/buildtool/build_engine/target_map/target_map.cpp:withDependencies", "src/buildtool/build_engine/target_map/export.cpp"]}
{"id": "C56", "title": "Taint and export implication are transitive", "statement": "A target's taint includes the taint of every target it transitively depends on through non-anonymous edges; a target that is exported is untainted; the implied export targets of a target are exactly the export targets reached through its dependencies.", "quantifier": "all target graphs", "why_tests_cant": "All graphs.", "anchors": ["src/buildtool/build_engine/target_map/target_map.cpp:withDependencies", "src/buildtool/build_engine/target_map/export.cpp:FinalizeExport"]}
{"id": "C57", "title": "Compactification of a valid storage succeeds", "statement": "Compactifying a generation reports success whenever the generation is valid, and replaces every object that has at least two chunks by a large-object entry.", "quantifier": "all storage contents, all interleavings of the compactification tasks", "why_tests_cant": "The outcome depends on the interleaving of tasks for a file and an executable with the same content.", "anchors": ["src/buildtool/storage/compactifier.cpp:SplitLarge", "src/buildtool/storage/compactification_task.cpp:CompactifyConcurrently", "src/buildtool/storage/garbage_collector.cpp:Compactify"]}
{"id": "C58", "title": "The working directory of an action exists and conflicts with nothing", "statement": "Adding the directory for the working directory of an action to its inputs never introduces a staging conflict, keeps all inputs, adds nothing else, and afterwards there is an entry at, below or above the working directory.", "quantifier": "all conflict-free stages, all working directories accepted by the engine", "why_tests_cant": "All spellings of the working directory and all stages.", "anchors": ["src/buildtool/build_engine/target_map/utils.cpp:add_dir_for", "src/buildtool/build_engine/target_map/target_map.cpp:withDependencies"]}
{"id": "C59", "title": "Evaluation always terminates with exactly one outcome", "statement": "Evaluating any expression of any function (with any imports) in any environment terminates, and yields exactly one value or one error; the depth of nested evaluations is bounded by the expression and the imported functions alone, whatever the environment.", "quantifier": "all functions, all expressions, all environments", "why_tests_cant": "A test can only run finitely many expressions.", "anchors": ["src/buildtool/build_engine/expression/evaluator.cpp:Evaluator::EvaluateExpression", "src/buildtool/build_engine/base_maps/expression_function.hpp:ExpressionFunction::Evaluate"]}
{"id": "C60", "title": "to_subdir puts every entry where it belongs", "statement": "`to_subdir` fails iff two entries that meet at one place differ (or are not cacheable); otherwise its value has exactly the given entries, each at the place its key denotes inside the sub-directory, or at its base name there if staging is flat.", "quantifier": "all maps, all sub-directories, both staging modes", "why_tests_cant": "All spellings of keys and sub-directories.", "anchors": ["src/buildtool/build_engine/expression/evaluator.cpp:ToSubdir"]}
{"id": "C61", "title": "from_subdir takes exactly the content of a directory", "statement": "`from_subdir` keeps exactly the entries inside of the sub-directory, each at its relative path, and undoes `to_subdir`.", "quantifier": "all maps, all sub-directories", "why_tests_cant": "All spellings of keys and sub-directories.", "anchors": ["src/buildtool/build_engine/expression/evaluator.cpp:FromSubdir"]}
{"id": "C62", "title": "Artifact descriptions survive being written down", "statement": "A valid artifact description written as JSON reads back as the same description (the repository of a known artifact is not part of it), and two descriptions with the same identifier are equal up to that repository unless the hash function collides on their texts.", "quantifier": "all valid artifact descriptions, all hash functions", "why_tests_cant": "All digests, paths and identifiers; a pair of descriptions has to be looked at.", "anchors": ["src/buildtool/common/artifact_description.cpp:ArtifactDescription::FromJson", "src/buildtool/common/artifact_description.cpp:ArtifactDescription::ToJson", "src/buildtool/common/artifact_description.cpp:ArtifactDescription::ComputeId"]}
{"id": "C63", "title": "json_encode is faithful", "statement": "The value of a `json_encode` expression of a value made of null, booleans, numbers, strings, lists, and maps is a JSON text of that value, and different values have different encodings.", "quantifier": "all such values, all environments", "why_tests_cant": "All strings, including those with characters to be escaped, and all pairs of values.", "anchors": ["src/buildtool/build_engine/expression/evaluator.cpp:JsonEncodeExpr", "src/buildtool/build_engine/expression/expression.cpp:Expression::ToJson", "src/buildtool/build_engine/expression/expression.cpp:Expression::FromJson"]}
{"id": "C64", "title": "Target results read from the target cache are the ones that were written", "statement": "The serialisation of a target result written to the target cache, with the artifacts replaced by known ones, is read back as exactly the target result with these artifacts; if an artifact has no replacement, nothing is written.", "quantifier": "all target results without abstract names, all replacements", "why_tests_cant": "Sharing of sub-expressions, nesting, and all combinations of values.", "anchors": ["src/buildtool/build_engine/expression/target_result.cpp:TargetResult::FromJson", "src/buildtool/build_engine/expression/target_result.cpp:TargetResult::ToJson", "src/buildtool/build_engine/expression/target_result.cpp:TargetResult::ReplaceNonKnownAndToJson"]}
{"id": "C65", "title": "Action graphs read back as written", "statement": "An action, tree, or tree overlay written to an action graph is read back as the same one (up to the repository of known artifacts).", "quantifier": "all actions with a command and an output, all trees, all overlays", "why_tests_cant": "All combinations of optional keys and all contents.", "anchors": ["src/buildtool/common/action_description.hpp:ActionDescription::FromJson", "src/buildtool/common/action_description.hpp:ActionDescription::ToJson", "src/buildtool/common/tree.hpp:Tree::FromJson", "src/buildtool/common/tree_overlay.hpp:TreeOverlay::FromJson"]}
{"id": "C66", "title": "Equality of nodes is identity of what they hold", "statement": "Two target nodes compare equal iff they hold the same value, or the same type, string fields, and target fields.", "quantifier": "all pairs of nodes", "why_tests_cant": "All pairs of nodes have to be looked at.", "anchors": ["src/buildtool/build_engine/expression/target_node.hpp:TargetNode::operator=="]}
{"id": "C67", "title": "Uploading blobs succeeds only if all of them arrived", "statement": "If the upload of a set of blobs is reported successful, the remote storage has each of them, whatever batch requests failed or were confirmed only in part; and if single blobs can be written, the upload is successful whatever happens to batch requests.", "quantifier": "all sets of blobs, all limits, all server behaviours including partial confirmation", "why_tests_cant": "The ways in which batch requests can fail, be confirmed in part, or be impossible to create are too many to be tried.", "anchors": ["src/buildtool/execution_api/remote/bazel/bazel_cas_client.cpp:BazelCasClient::BatchUpdateBlobs", "src/buildtool/execution_api/remote/bazel/bazel_network.cpp:BazelNetwork::UploadBlobs"]}
{"id": "C68", "title": "What was executed with caching is served again", "statement": "After an action was executed successfully with caching allowed, executing the same action again with caching allowed is answered from the cache with the same result, without running it.", "quantifier": "all actions, all results of runs, both ways to name outputs", "why_tests_cant": "All shapes of outputs (files, directories, symbolic links) and both ways of naming outputs would have to be combined.", "anchors": ["src/buildtool/execution_api/local/local_action.cpp:LocalAction::Execute", "src/buildtool/execution_api/local/local_action.cpp:LocalAction::CollectAndStoreOutputs", "src/buildtool/execution_api/utils/outputscheck.hpp:ActionResultContainsExpectedOutputs"]}
{"id": "C69", "title": "Analysis ends with a result or an error", "statement": "Whatever the definitions of the targets say, analysing a target ends with a result or a reported error; no definition makes the tool crash.", "quantifier": "all target definitions, rules, and configurations", "why_tests_cant": "A crash shows only for the one combination of rule and malformed field that was forgotten.", "anchors": ["src/buildtool/build_engine/target_map/built_in_rules.cpp:GenericRule", "src/buildtool/build_engine/target_map/target_map.cpp:CreateTargetMap"]}
{"id": "C70", "title": "An install target contains precisely what it asks for", "statement": "The stage of an `install` target has the runfiles of `deps`, the `files` overriding them, and below their directories the artifacts and remaining runfiles of `dirs`, each at its place, and nothing else; different artifacts at one place are an error; and nothing is installed outside of the output directory.", "quantifier": "all sets of targets, all stages of theirs, all descriptions, all orders of the files", "why_tests_cant": "Overlaps between all the stages involved and all spellings of paths would have to be combined.", "anchors": ["src/buildtool/build_engine/target_map/built_in_rules.cpp:InstallRuleWithDeps", "src/buildtool/build_engine/target_map/utils.cpp:BuildMaps::Target::Utils::tree_conflict", "src/buildtool/graph_traverser/graph_traverser.cpp:GraphTraverser::PrepareOutputPaths"]}
{"id": "C71", "title": "Actions defined by rules are what is asked for", "statement": "The action recorded for a call of `ACTION` in a rule, or for a `generic` target, has precisely the command, environment, inputs, outputs, properties and timeout asked for, at the places asked for; the artifacts obtained are precisely its outputs; everything malformed or contradictory is rejected; an action may fail or is excluded from caching only if the rule is tainted accordingly; and outputs are inside of the action root.", "quantifier": "all values of all arguments, all dependencies of generic targets", "why_tests_cant": "All values and spellings of paths of all arguments would have to be combined.", "anchors": ["src/buildtool/build_engine/target_map/target_map.cpp:withDependencies", "src/buildtool/build_engine/target_map/built_in_rules.cpp:GenericRuleWithDeps", "src/buildtool/build_engine/target_map/utils.cpp:BuildMaps::Target::Utils::createAction"]}
{"id": "C72", "title": "Rules cannot refer to anything that cannot be obtained", "statement": "If the defining expression of a rule evaluates to a result, then every artifact in it, also inside of provided values, results and nodes, can be obtained from artifacts of the dependencies with the actions, trees, overlays and blobs recorded for the target: it is an output of a recorded action all inputs of which can be obtained, and so on, in finitely many steps. So the graph handed over to the build is closed for all targets together, with source files as its only leaves. Artifacts and runfiles are stages without conflicts, results and nodes inside of provided values have the proper form, and names of targets cannot be made up.", "quantifier": "all rules (arbitrary expressions, also recursive ones and with imported functions), fields, dependencies, configurations; all sequences of analysed targets", "why_tests_cant": "Rules are programs; tests evaluate a few of them.", "anchors": ["src/buildtool/build_engine/target_map/target_map.cpp:withDependencies", "src/buildtool/build_engine/target_map/target_map.cpp:ExprToTree", "src/buildtool/build_engine/target_map/utils.cpp:BuildMaps::Target::Utils::obtainTarget", "src/buildtool/build_engine/expression/evaluator.cpp:Evaluator::Evaluate"]}
{"id": "C73", "title": "Targets without taint do not depend on actions that may fail or must not be cached", "statement": "If a target has no taint (as is required of every export target, the results of which are stored in the target cache), then every artifact in it, also inside of the values it provides, can be built without any action that is allowed to fail or must not be cached: no such action is in the cone of the artifact in the action graph, and in no build is the artifact marked as failed. This holds however sources, rules, generic targets, trees, overlays, installs, globs, configured and exported targets are put together. The exception are anonymous targets, which carry no taint although their node may.", "quantifier": "all sequences of analysed targets of all kinds, all rules, all subsets of the recorded actions making up a graph, all schedules of a traversal and all outcomes of actions", "why_tests_cant": "The taint is computed separately by each kind of target; tests look at single targets and not at all ways to combine them.", "anchors": ["src/buildtool/build_engine/target_map/target_map.cpp:withDependencies", "src/buildtool/build_engine/target_map/built_in_rules.cpp:TreeRuleWithDeps", "src/buildtool/build_engine/target_map/built_in_rules.cpp:GenericRuleWithDeps", "src/buildtool/build_engine/target_map/export.cpp:ExportRule", "src/buildtool/graph_traverser/graph_traverser.cpp:GraphTraverser::BuildAndStage"]}
{"id": "C74", "title": "Tree targets, overlays, globs and source trees contain exactly what they should", "statement": "A `tree` target is a single tree at its name that contains precisely the artifacts of its dependencies and those of their runfiles not shadowed by an artifact of the same dependency; it is accepted iff these fit into one stage, and the order of dependencies does not matter. A tree overlay has, in the order of the dependencies, one tree with precisely the artifacts of each. A glob has precisely the matching sources. A generated file or link is a single entry with the given content; links leading upwards are rejected. A source tree has at each path precisely what the directory of the workspace has there, including empty directories. A file is only read from below its module, and no target can be installed outside of the output directory.", "quantifier": "all dependencies (any stages in normal form), names, directories of any depth, hash functions without collisions among the trees recorded", "why_tests_cant": "Stages and directories are unbounded; tests use a handful of paths.", "anchors": ["src/buildtool/build_engine/target_map/built_in_rules.cpp:TreeRuleWithDeps", "src/buildtool/build_engine/target_map/built_in_rules.cpp:BlobGenRuleWithDeps", "src/buildtool/build_engine/target_map/target_map.cpp:TreeTarget", "src/buildtool/build_engine/target_map/target_map.cpp:GlobResult", "src/buildtool/build_engine/base_maps/source_map.cpp:CreateSourceTargetMap", "src/buildtool/build_engine/base_maps/directory_map.cpp:CreateDirectoryEntriesMap"]}
{"id": "C75", "title": "The target cache gives what analysis would give, and its entries are complete", "statement": "Two export targets share a key of the target cache only if repository key, module, name and effective configuration are the same, and share the cache itself only if the description of the remote-execution backend (address, properties, dispatch list) is the same. An entry reads back as the result of the analysis, with artifacts replaced by known ones and the same implied export targets; the artifacts fetched before storing the entry are exactly those mentioned in it. At any time, in any interleaving of the writers and whatever fails, each entry of the target cache has its artifacts in the local CAS and its implied export targets in the target cache. So what is found for a target is what analysis gives for this very target.", "quantifier": "all keys, configurations, results, sets of export targets, all interleavings of the writers, all failures, all additions by other processes", "why_tests_cant": "Interleavings and failures cannot be enumerated; whether keys are shared depends on all pairs of configurations.", "anchors": ["src/buildtool/storage/target_cache.tpp:TargetCache::ComputeKey", "src/buildtool/storage/target_cache.tpp:TargetCache::Store", "src/buildtool/storage/target_cache_entry.cpp:TargetCacheEntry::ToArtifacts", "src/buildtool/storage/target_cache_entry.cpp:TargetCacheEntry::FromTarget", "src/buildtool/storage/backend_description.cpp:BackendDescription::Describe", "src/buildtool/main/build_utils.cpp:CreateTargetCacheWriterMap"]}
{"id": "C76", "title": "Keys of the action cache determine the action", "statement": "Two requests to the execution API with the same action digest are the same request (command line, working directory, declared outputs, environment, properties, input root, timeout, and whether caching is disabled), unless the two messages built for them are different and have the same hash. So whatever the local execution answers from its action cache is the result of an earlier successful execution of the very same request, keys with and without caching are different, and actions of a build share a key only if they run the same command on the same inputs and collect the same places. The order of declared outputs does not matter. Properties of the action win over platform properties, and an action is dispatched to the first endpoint all of whose conditions are met.", "quantifier": "all requests, hash functions, histories of executions, lists of outputs, properties, dispatch lists", "why_tests_cant": "Injectivity of a serialisation is about all pairs of requests; tests compare some digests.", "anchors": ["src/buildtool/execution_api/bazel_msg/bazel_msg_factory.cpp:BazelMsgFactory::CreateActionDigestFromCommandLine", "src/buildtool/execution_api/bazel_msg/bazel_msg_factory.cpp:CreateCommandBundle", "src/buildtool/execution_api/bazel_msg/bazel_msg_factory.cpp:CreateActionBundle", "src/buildtool/execution_api/local/local_action.hpp:LocalAction::CreateActionDigest", "src/buildtool/execution_api/remote/bazel/bazel_action.cpp:BazelAction::CreateBundlesForAction", "src/buildtool/execution_engine/executor/executor.hpp:ExecutorImpl::ExecuteAction", "src/buildtool/execution_engine/executor/executor.hpp:ExecutorImpl::MergeProperties", "src/buildtool/execution_engine/executor/executor.hpp:ExecutorImpl::GetAlternativeEndpoint"]}
{"id": "C77", "title": "Rehashing between git and the compatible protocol keeps the content", "statement": "When objects of git repositories are rehashed for a remote end that uses the compatible protocol, the digests obtained give, in the compatible CAS, the same content: for blobs the blob, for trees a directory in which precisely the same paths exist, with the same contents, types and executable bits. The same holds for directories of the compatible protocol that are rehashed as git trees. The digest of an object does not depend on what else has been rehashed before, on the order in which entries are visited, or on what is in the CAS. The type of each object is the one asked for, and what is returned is in the CAS.", "quantifier": "all git repositories, trees of any depth and shape, orders of entries, sequences of objects rehashed, hash functions without collisions among the contents at hand", "why_tests_cant": "Trees and the sequences of objects rehashed before are unbounded; tests rehash one tree.", "anchors": ["src/buildtool/execution_api/bazel_msg/bazel_msg_factory.cpp:BazelMsgFactory::CreateDirectoryDigestFromGitTree", "src/buildtool/execution_api/bazel_msg/bazel_msg_factory.cpp:BazelMsgFactory::CreateGitTreeDigestFromDirectory", "src/buildtool/execution_api/utils/rehash_utils.cpp:RehashUtils::ReadRehashedDigest", "src/buildtool/execution_api/utils/rehash_utils.cpp:RehashUtils::StoreRehashedDigest", "src/buildtool/execution_api/utils/rehash_utils.cpp:RehashDigestImpl", "src/buildtool/execution_api/serve/mr_git_api.cpp:MRGitApi::RetrieveToCas", "src/buildtool/execution_api/serve/mr_local_api.cpp:MRLocalApi::RetrieveToCas"]}
{"id": "C78", "title": "Executing via the execution service gives the artifacts of local execution", "statement": "For every result of executing an action, a client of the execution service obtains for each output path precisely the artifact that local execution reports on the machine of the service: files, executables, symbolic links, and directories, with the same digests and types, although in compatible mode directories are sent as Tree messages. Whether links leave the directories is judged alike on both sides, and in compatible mode all directories contained in the outputs, as well as the targets of links, are uploaded by the client. Clients using the older protocol are told separately which links are there for directories. What is executed is what the client asked for: same command, working directory, environment, inputs, and outputs. Answering from the action cache gives the same artifacts as executing.", "quantifier": "all results with all outputs stored, directories of any shape and depth, orders in which artifacts are visited, both protocols, both versions of the API, all later states of the CAS, hash functions without collisions among the contents at hand", "why_tests_cant": "Results and directory trees are unbounded, and the result travels through four representations; tests use one action with a few outputs.", "anchors": ["src/buildtool/execution_api/local/local_response.hpp:LocalResponse::Populate", "src/buildtool/execution_api/local/local_cas_reader.cpp:LocalCasReader::MakeTree", "src/buildtool/execution_api/local/local_cas_reader.cpp:LocalCasReader::IsDirectoryValid", "src/buildtool/execution_api/execution_service/execution_server.cpp:ToBazelActionResult", "src/buildtool/execution_api/execution_service/execution_server.cpp:ExecutionServiceImpl::ToIExecutionAction", "src/buildtool/execution_api/execution_service/execution_server.cpp:ExecutionServiceImpl::Execute", "src/buildtool/execution_api/remote/bazel/bazel_response.cpp:BazelResponse::Populate", "src/buildtool/execution_api/remote/bazel/bazel_network_reader.cpp:BazelNetworkReader::ReadOrdered"]}
{"id": "C79", "title": "A computed root has the artifacts of its target, and depends on their content only", "statement": "The root of a repository that is computed from the artifacts of a target (taken from the target cache or from a serve endpoint) is a git tree that has every artifact at its place in the stage, with its type and, for trees, everything in it; it has directories above the artifacts, and nothing else. Its identifier depends on that content only: a stage that gives a directory as one tree and a stage that gives the files in it have the same root. If an artifact is not known, or cannot be rehashed, then an error is reported.", "quantifier": "all stages without conflicts, of any depth and number of entries; all names git can represent; hash functions without collisions among the trees at hand", "why_tests_cant": "The walk with a stack of partial trees depends on the order of entries in a way that only shows for certain names; tests have a few entries.", "anchors": ["src/buildtool/computed_roots/artifacts_root.cpp:ArtifactsRoot", "src/buildtool/computed_roots/artifacts_root.cpp:PartialTree::To", "src/buildtool/computed_roots/artifacts_root.cpp:PartialTree::Up", "src/buildtool/computed_roots/artifacts_root.cpp:PartialTree::Down", "src/buildtool/computed_roots/artifacts_root.cpp:PartialTree::Add", "src/buildtool/computed_roots/artifacts_root.cpp:PartialTree::Done", "src/buildtool/computed_roots/lookup_cache.cpp:LookupCache", "src/buildtool/computed_roots/inquire_serve.cpp:InquireServe"]}
{"id": "C80", "title": "Installed artifacts are where they were asked for, with their content, and nothing else changes", "statement": "After artifacts have been installed to an output directory successfully, every file, executable, and symbolic link of the artifacts, including those in trees at any depth, is at its path below that directory with its type and content, and every directory above it exists; everything else, inside and outside of the output directory, is as before. Whether it succeeds or not, nothing outside of the output directory changes, except that missing directories above it are created. It succeeds if all objects are in the CAS and nothing is in the way; installing again succeeds and changes nothing. Importing a directory to git gives a tree with exactly the files and directories in it; for artifacts installed to an empty directory it is the root computed from the artifacts.", "quantifier": "all artifacts at proper paths none of which is above another one, trees of any depth with proper names of entries; all file systems before; trees and blobs in the local CAS or in git, entries visited in any order; hash functions without collisions among the trees at hand", "why_tests_cant": "Interaction of path concatenation, creation of directories, replacement of existing files, and fallback to git after part of the files have been written; tests install a few artifacts to an empty directory.", "anchors": ["src/buildtool/graph_traverser/graph_traverser.cpp:RetrieveOutputs", "src/buildtool/graph_traverser/graph_traverser.cpp:PrepareOutputPaths", "src/buildtool/execution_api/local/local_api.cpp:RetrieveToPaths", "src/buildtool/execution_api/git/git_api.cpp:RetrieveToPaths", "src/buildtool/execution_api/common/tree_reader.hpp:StageTo", "src/buildtool/execution_api/common/tree_reader.hpp:RecursivelyReadTreeLeafs", "src/buildtool/execution_api/local/local_cas_reader.cpp:StageBlobTo", "src/buildtool/execution_api/local/local_cas_reader.cpp:ReadGitTree", "src/buildtool/file_system/git_repo.cpp:CreateTreeFromDirectory"]}
{"id": "C81", "title": "The structure of a tree has the same shape with empty files, and is the same for all trees of this shape", "statement": "The tree structure computed for a tree, or taken from the cache, has exactly the same directories, and at the same places files, executables, and symbolic links, all with empty content; it is stored as git would write it. Two trees get the same structure if and only if they agree up to the content of files, whatever is in the cache and in the storage, and the structure of a structure is that structure. For every tree in the storage, the computation succeeds. A structure computed for the use as a root is in the git repository with everything below it, and the tree reported is the same whether the structure was computed, taken from the cache, or found in the repository.", "quantifier": "all sequences of storing trees, computing structures, garbage collection of the storage that keeps it closed, and rotation of the generations of the cache; trees of any depth, entries visited in any order; hash functions without collisions among the trees at hand", "why_tests_cant": "Cache entries refer to objects that garbage collection may have removed, and survive over generations; tests compute structures of a few trees in a fresh storage.", "anchors": ["src/buildtool/tree_structure/tree_structure_utils.cpp:Compute", "src/buildtool/tree_structure/tree_structure_utils.cpp:ImportToGit", "src/buildtool/tree_structure/tree_structure_utils.cpp:ComputeStructureLocally", "src/buildtool/tree_structure/tree_structure_cache.cpp:Get", "src/buildtool/tree_structure/tree_structure_cache.cpp:Set", "src/buildtool/tree_structure/tree_structure_cache.cpp:LocalUplinkObject"]}
{"id": "C82", "title": "Retrieving objects from a remote storage keeps the target closed and succeeds only if everything is there", "statement": "While objects are retrieved from a remote storage to another one, at every moment each tree in the target has all its entries there, whether or not the retrieval succeeds in the end. After success, the target has everything below the requested objects. Nothing is stored but what is below the requested objects, and chunks of that. If the remote storage delivers everything below the requested objects, success is possible from every state of the target. All of this holds for the sequential variant as well as for the parallel one, with and without splitting blobs into chunks.", "quantifier": "all requests, trees of any depth, all closed states of the target, all schedules of the tasks, and all answers: objects reported missing, trees that cannot be read, blobs that are not delivered, chunks, failures to splice, uploads that fail in part", "why_tests_cant": "Tests retrieve small trees from a remote execution service that does not fail; whether the target is closed when a transfer is cut off depends on the order in which tasks store objects.", "anchors": ["src/buildtool/execution_api/remote/bazel/bazel_api.cpp:RetrieveToCas", "src/buildtool/execution_api/remote/bazel/bazel_api.cpp:RetrieveToCasSplitted", "src/buildtool/execution_api/remote/bazel/bazel_api.cpp:ParallelRetrieveToCasWithCache", "src/buildtool/execution_api/remote/bazel/bazel_cas_client.cpp:BatchReadBlobs", "src/buildtool/execution_api/common/tree_reader.hpp:ReadDirectTreeEntries"]}
{"id": "C83", "title": "Byte streams transfer blobs completely or report failure", "statement": "Reading a source chunk by chunk, from memory or from a file and from any place in it, gives all the content that follows. A blob read from the server by a byte stream is the content asked for, or reading fails; from any other server, what is accepted has the digest asked for. A blob written by a byte stream is at the server with all its content if success is reported, wherever the stream breaks and however often it is resumed, with every server that conforms to the protocol; what is committed is at all times a first part of the content. With the server of this tool, every blob can be written, nothing but first parts of it is ever stored, and every attempt ends.", "quantifier": "all contents of any size, all sizes of chunks, all offsets, all points at which a stream breaks, all answers to queries for the committed size, all servers that commit data only at the offset given", "why_tests_cant": "Tests transfer a few blobs over a connection that does not break; what happens when a stream is resumed or when offsets exceed the range of an integer is never seen.", "anchors": ["src/utils/cpp/incremental_reader.cpp:ReadChunk", "src/buildtool/execution_api/remote/bazel/bytestream_client.hpp:Write", "src/buildtool/execution_api/remote/bazel/bytestream_client.hpp:Read", "src/buildtool/execution_api/remote/bazel/bazel_network_reader.cpp:DumpBlob", "src/buildtool/execution_api/execution_service/bytestream_server.cpp:Write", "src/buildtool/execution_api/execution_service/bytestream_server.cpp:Read"]}
{"id": "C84", "title": "The execution service keeps its storage complete whatever clients send", "statement": "Whatever requests clients send to the execution service, in whatever order and however they are interleaved, interrupted or followed by garbage collections, every tree in the storage has all its entries in the same generation and every object is stored under its own hash. An upload, alone or in a batch, is accepted exactly if the data have the announced hash and size and, for trees, all entries are there (or come earlier in the batch); then the object is stored with everything below it. What is not reported as missing is there with everything below it, and what is reported was nowhere. Reading delivers everything that is there, with the hash asked for. A client that uploads a tree after it was told of each entry that it is there succeeds, if there were fewer collections in between than there are generations.", "quantifier": "all sequences of requests of any number of clients, all data sent (also invalid trees, data with wrong hashes, chunks not belonging together), all interleavings with each other and with other processes using the storage, all points of interruption, all collections", "why_tests_cant": "Tests send a handful of well-formed requests one after the other; a tree stored without its entries is noticed only much later by another client.", "anchors": ["src/buildtool/execution_api/execution_service/cas_server.cpp:FindMissingBlobs", "src/buildtool/execution_api/execution_service/cas_server.cpp:BatchUpdateBlobs", "src/buildtool/execution_api/execution_service/cas_server.cpp:BatchReadBlobs", "src/buildtool/execution_api/execution_service/cas_utils.cpp:AddDataToCAS", "src/buildtool/storage/local_cas.tpp:CheckTreeInvariant"]}
{"id": "C85", "title": "A source root shows the tree it was declared as, whatever was asked before", "statement": "Whatever the analysis asked a root before, and whichever trees were found valid earlier, the answers to its questions (is there a file with definitions and what is in it; which artifact is this source file; what is in this directory; which tree does a reference to a source tree stand for) are those read off the content of the root; in a root ignoring special entries, those read off the content without everything that is neither a file nor a directory. A git tree and a directory of the file system with the same content give the same answers.", "quantifier": "all contents of roots, all sequences of questions, all markers of valid trees left by other roots and processes", "why_tests_cant": "Tests ask fresh roots single questions; answers that depend on the order of earlier questions, with trees cached by whichever question came first, do not show.", "anchors": ["src/buildtool/file_system/file_root.hpp:ReadDirectory", "src/buildtool/file_system/file_root.hpp:IsBlob", "src/buildtool/file_system/git_tree.cpp:LookupEntryPyPath", "src/buildtool/file_system/git_tree.cpp:GitTreeEntry::Tree", "src/buildtool/file_system/git_tree_utils.cpp:IsGitTreeValid", "src/buildtool/build_engine/target_map/target_map.cpp:TreeTarget"]}
{"id": "C86", "title": "A successful build delivers what its actions say, and all of it", "statement": "At any time in a build, the storage of the endpoint has with each object all it refers to, and everything below the object of each artifact announced as available. An action is sent only when its directory is completely there. When a build ends without a failure, then for each action needed there is one result of running it on the objects of its inputs, with exit code zero or allowed to fail, that all its outputs are taken from (of the right type, marked as failed if an input is or the exit code is not zero); tree and overlay actions give the tree of their inputs; source artifacts are the given object or the content of the file. If running actions is deterministic, all successful builds agree on all artifacts, whatever the order of the work, the content of the storages and the activity of other clients. Nothing that is not there is accessed. Assumed: endpoints answer honestly, and retrieving from dispatch endpoints does not fail.", "quantifier": "all graphs of actions, all schedules of the threads, all contents of the storages, all interference of clients that store closed sets, all failures of uploads, all answers of honest endpoints", "why_tests_cant": "Tests run the executor on single nodes with mocked endpoints; that whole builds, in any schedule and with partially filled storages, only use complete inputs and end with complete outputs is a statement about all executions.", "anchors": ["src/buildtool/execution_engine/executor/executor.hpp:ExecuteAction", "src/buildtool/execution_engine/executor/executor.hpp:VerifyOrUploadArtifact", "src/buildtool/execution_engine/executor/executor.hpp:ParseResponse", "src/buildtool/execution_engine/executor/executor.hpp:CreateRootDigest", "src/buildtool/execution_engine/traverser/traverser.hpp:Traverser"]}
{"id": "C87", "title": "The root of an archive is what the archive contains, whatever is cached and whoever else is at work", "statement": "When just-mr reports a root for an archive, then there is a content with the given hash, and the root is the git tree identifier of what its extraction has at the given subdirectory (with symbolic links resolved as asked for): a directory. A root that is present is in the git repository of the youngest generation with all objects below it, and kept by a tag; a root that is absent is known to the serve endpoint, if there is one. This holds whatever else runs on the same storage at the same time, after any number of rotations of generations, and after processes died at any point. Two reports, on whatever machine and from whatever caches, agree if no links are resolved or they are resolved alike.", "quantifier": "all descriptions of archives, all contents of CAS and git cache that can come about, all interleavings of any number of tasks with each other, with other processes and with garbage collection, all honest answers of endpoints and the network", "why_tests_cant": "Tests set up single archives in fresh storages; that caches of one task never change what another reports, in any interleaving and across generations, is a statement about all executions.", "anchors": ["src/other_tools/root_maps/content_git_map.cpp:CreateContentGitMap", "src/other_tools/root_maps/content_git_map.cpp:ResolveContentTree", "src/other_tools/root_maps/content_git_map.cpp:HandleKnownInOlderGeneration", "src/other_tools/ops_maps/content_cas_map.cpp:CreateContentCASMap"]}
{"id": "C88", "title": "Roots for single files and for distdirs contain exactly the files named, each with the content of the hash given", "statement": "When a root is reported for a foreign file, it is the tree with this one file under the given name, with the content of the given hash and executable as asked for. When one is reported for a distdir, it is the tree with one file for each archive, named as the archive's distfile, with the content of the archive's hash; it does not depend on the order in which the archives are listed. Roots that are present are in the git cache with all contents and kept by a tag; roots that are absent are known to the serve endpoint, if there is one.", "quantifier": "all descriptions, all states of storage that can come about, all interleavings with other tasks, other processes and garbage collection, all honest answers", "why_tests_cant": "Tests use single fixed lists of archives; the agreement of the tree computed from the hashes alone (absent roots) with the one imported from the contents (present roots), for all lists and states, is not testable.", "anchors": ["src/other_tools/root_maps/distdir_git_map.cpp:CreateDistdirGitMap", "src/other_tools/root_maps/foreign_file_git_map.cpp:CreateForeignFileGitMap", "src/other_tools/repo_map/repos_to_setup_map.cpp:DistdirCheckout"]}
{"id": "C89", "title": "Roots are set up without the network where that is possible", "statement": "If the content of an archive is in the CAS, in the git cache of any generation or in a directory for distribution files, or if the tree of the archive is remembered in any generation, then setting up a root that is wanted here succeeds without asking a serve endpoint, a remote or the network. Once a root has been set up, setting it up again asks nothing at all and changes nothing; after a rotation of generations it is still set up again without leaving the machine.", "quantifier": "all descriptions of archives, all states of storage that can come about, all answers of the outside", "why_tests_cant": "It is a liveness statement about all states of the storage reachable with other tasks and garbage collection; tests can only try single states.", "anchors": ["src/other_tools/root_maps/content_git_map.cpp:CreateContentGitMap", "src/other_tools/ops_maps/content_cas_map.cpp:CreateContentCASMap", "src/buildtool/storage/repository_garbage_collector.cpp:TriggerGarbageCollection"]}
{"id": "C90", "title": "The root of a commit is what is committed, and the user's own checkouts are left as they are", "statement": "When just-mr reports a root for a commit, the root is the git identifier of what the directory committed under the given hash has at the given subdirectory. A root is reported as absent if and only if this was asked for, and then the serve endpoint, if there is one, has it. A root that is present is there with all objects below it, in the git cache or in the user's repository; the latter only if it is the location to use for the url. Two reports for the same commit and subdirectory agree, on whatever machine. Whatever is in the user's repository stays there; it gets no tags, and if it is not to be used, it is not changed.", "quantifier": "all descriptions of commits, all states of git cache and checkouts that can come about, all interleavings of any number of tasks with each other, with other processes and with garbage collection, all honest answers of endpoints, anything fetched from the network", "why_tests_cant": "Tests fetch single commits into fresh caches; the many ways a commit or its tree may already be known (checkout, remembered tree, older generation, serve endpoint, remote), in all states and interleavings, are not testable.", "anchors": ["src/other_tools/root_maps/commit_git_map.cpp:CreateCommitGitMap", "src/other_tools/root_maps/commit_git_map.cpp:EnsureCommit", "src/other_tools/root_maps/commit_git_map.cpp:TakeCommitFromOlderGeneration", "src/other_tools/root_maps/commit_git_map.cpp:NetworkFetchAndSetPresentRoot"]}
{"id": "C91", "title": "A commit that is known is not fetched again", "statement": "If a commit is in the git repository to be used, or its tree is remembered, or it is in an older generation of the git cache, then a root for it that is not absent is set up without asking a serve endpoint, a remote or the network. Once a root was set up in the git cache, setting it up again asks nothing and changes nothing; after a rotation of generations it is still set up without leaving the machine.", "quantifier": "all descriptions of commits, all states of git cache and checkouts that can come about, all answers of the outside", "why_tests_cant": "It is a liveness statement about all reachable states of the storage; tests can only try single states.", "anchors": ["src/other_tools/root_maps/commit_git_map.cpp:EnsureCommit", "src/other_tools/root_maps/commit_git_map.cpp:TakeCommitFromOlderGeneration", "src/buildtool/storage/repository_garbage_collector.cpp:TriggerGarbageCollection"]}
{"id": "C92", "title": "A git-tree root is the tree asked for, and it is there", "statement": "When just-mr reports a root for a git tree, the root is the tree hash given. It is absent if and only if this was asked for, and then the serve endpoint, if there is one, has the tree. Otherwise the tree with this hash is in the git cache with all objects below it, wherever it came from (an older generation, the local CAS, the serve endpoint, the remote, or what the given command leaves), and it is kept there by a tag.", "quantifier": "all descriptions of git trees, all states of the storage that can come about, all interleavings of any number of tasks with each other, with other processes and with garbage collection, all honest answers of endpoints, any outcome of the command", "why_tests_cant": "The tree may come from five places, and other tasks, interrupted ones included, may have left parts of it; tests try single ones.", "anchors": ["src/other_tools/root_maps/tree_id_git_map.cpp:CreateTreeIdGitMap", "src/other_tools/ops_maps/git_tree_fetch_map.cpp:CreateGitTreeFetchMap", "src/other_tools/ops_maps/git_tree_fetch_map.cpp:MoveCASTreeToGit", "src/other_tools/ops_maps/git_tree_fetch_map.cpp:TakeTreeFromOlderGeneration"]}
{"id": "C93", "title": "A git tree that is here is not fetched", "statement": "If the tree is in the git cache of any generation, a root for it that is not absent is set up without asking anybody; if it is in the local CAS, only that is asked. Once a root was set up, setting it up again asks nothing and changes nothing, and after a rotation of generations it is set up without asking anybody. An absent root whose tree is here is handed over to a serve endpoint that does not have it.", "quantifier": "all descriptions of git trees, all states of the storage that can come about, all answers of the outside", "why_tests_cant": "It is a liveness statement about all reachable states of the storage; tests can only try single states.", "anchors": ["src/other_tools/ops_maps/git_tree_fetch_map.cpp:CreateGitTreeFetchMap", "src/other_tools/ops_maps/git_tree_fetch_map.cpp:TakeTreeFromOlderGeneration", "src/other_tools/root_maps/tree_id_git_map.cpp:CreateTreeIdGitMap", "src/buildtool/storage/repository_garbage_collector.cpp:TriggerGarbageCollection"]}
{"id": "C94", "title": "The root for a directory is what is there, and the user's repository is left as it is", "statement": "When just-mr reports a root for a directory, it is the git identifier of what is committed there, if the directory is in a git repository (at the commit checked out), and otherwise of what the directory contains, in both cases with the symbolic links resolved if asked for. It is absent if and only if this was asked for, and then the serve endpoint, if there is one, has the tree. Otherwise all of the tree is there: in the repository of the user, if committed there and no links are to be resolved, or in the git cache, kept by a tag. Except for commits to be taken from it, setting up roots of any kind does not change the repository of the user.", "quantifier": "all paths, all states of the storage and of the repository that can come about, all interleavings of any number of tasks with each other, with other processes and with garbage collection, all honest answers of the serve endpoint", "why_tests_cant": "It is about all contents of directories and repositories, all states and interleavings; tests use small fixed directories.", "anchors": ["src/other_tools/root_maps/fpath_git_map.cpp:CreateFilePathGitMap", "src/other_tools/root_maps/fpath_git_map.cpp:ResolveFilePathTree", "src/other_tools/root_maps/fpath_git_map.cpp:CheckServeAndSetRoot"]}
{"id": "C95", "title": "The configuration just-mr generates has exactly the repositories needed, and is closed", "statement": "The configuration has an entry exactly for the main repository, the repositories bound directly or indirectly, and those from which a root of these or of their layers has to be computed; with --all, for every repository. The entry has the workspace root for the description of the repository (following aliases), the bindings and file names as declared, the roots of the repositories named as layers, and nothing else. Every repository bound, or needed to compute a root in it, has an entry as well. A configuration is generated whenever the roots of all repositories needed can be provided; a description that cannot be used is an error.", "quantifier": "all descriptions of repositories (any JSON value), all outcomes of fetching roots, all arguments", "why_tests_cant": "The descriptions are arbitrary graphs with several kinds of edges, and aliases among them; tests use a few small ones.", "anchors": ["src/other_tools/just_mr/setup.cpp:MultiRepoSetup", "src/other_tools/just_mr/setup_utils.cpp:ReachableRepositories", "src/other_tools/just_mr/setup_utils.cpp:GetTargetRepoIfPrecomputed", "src/other_tools/just_mr/utils.cpp:ResolveRepo", "src/other_tools/repo_map/repos_to_setup_map.cpp:CreateReposToSetupMap", "src/other_tools/utils/parse_precomputed_root.cpp:ParsePrecomputedRoot"]}
{"id": "C96", "title": "just sees the repositories as they are described to just-mr", "statement": "When just reads the configuration just-mr has generated, it takes the same repository as main repository, it knows exactly the repositories needed, and for each of them: the workspace root is the one described (a directory, a git tree that is there or absent, a root to compute), the roots for targets, rules and expressions are the workspace roots of the repositories named as layers, and otherwise default to the workspace root, the root for targets and the root for rules, respectively; bindings and file names are the declared ones, or the defaults. just accepts what just-mr has generated.", "quantifier": "all descriptions of repositories, all outcomes of fetching roots", "why_tests_cant": "It relates two programs that are tested separately, over all descriptions.", "anchors": ["src/buildtool/main/main.cpp:DetermineRoots", "src/buildtool/file_system/file_root.hpp:ParseRoot", "src/buildtool/file_system/precomputed_root.cpp:Parse", "src/other_tools/just_mr/setup.cpp:MultiRepoSetup", "src/other_tools/utils/parse_precomputed_root.cpp:ParseComputedRoot"]}
{"id": "C97", "title": "The list of absent repositories decides which repositories are absent", "statement": "If a list of absent repositories is given, a repository is absent if and only if it is in the list, whatever its pragma says, and nothing else about the repositories changes. With --fetch-absent no repository is absent.", "quantifier": "all descriptions of repositories, all lists", "why_tests_cant": "Repositories can be described in many ways, the list applies to all of them.", "anchors": ["src/other_tools/just_mr/setup_utils.cpp:ReadConfiguration", "src/other_tools/repo_map/repos_to_setup_map.cpp:PrecomputedRootCheckout", "src/other_tools/repo_map/repos_to_setup_map.cpp:FileCheckout"]}
{"id": "C98", "title": "The settings of just-mr come from its rc files and the command line, in the documented order", "statement": "The rc file is overlaid by the further files it names, in order. For most fields the last file giving it decides; the arguments and files for just and the settings of the invocation log are joined entry by entry; the distdirs of all files are taken, those of later files first. What is given on the command line is used, whatever the rc files say (log files are taken from both); what is not given there is taken from the effective rc file, otherwise the default. Locations are relative to the root they name. The multi-repository configuration is the one given on the command line, otherwise the first existing file of the look-up order. The effective rc file, when dumped, is self-contained: used in place of the rc file it gives the same settings.", "quantifier": "all contents of the rc file and of the files it names (any JSON value), all arguments, all file systems", "why_tests_cant": "The rule for merging is different from field to field and files name further files; tests look at a few fields and two files.", "anchors": ["src/other_tools/just_mr/rc.cpp:ReadJustMRRC", "src/other_tools/just_mr/rc_merge.cpp:MergeMRRC", "src/buildtool/common/location.cpp:ReadLocationObject", "src/other_tools/just_mr/main.cpp:main"]}
{"id": "C99", "title": "just-mr starts just with the settings it has, and the user's arguments win", "statement": "When just-mr starts a subcommand of just, every setting of just-mr that the subcommand knows is passed on and read by just as the value just-mr has; options the subcommand does not know are not passed. The arguments the user gives after the subcommand come last and so win, then those of the invocation log, then those of the rc file. The files requested for the invocation log are directly in the new directory of the invocation, and the metadata file there records the command that is executed. The configuration of the build is the configuration file, overlaid by the definitions of just-mr, then those of the rc file and of the user. `do` behaves like the subcommand.", "quantifier": "all settings of just-mr, all subcommands, all additional arguments in the form of separate words", "why_tests_cant": "There are about thirty options and a dozen subcommands; a test starts just with one combination.", "anchors": ["src/other_tools/just_mr/launch.cpp:CallJust", "src/buildtool/main/cli.cpp:ParseCommandLineArguments", "src/buildtool/main/main.cpp:ReadConfiguration"]}
{"id": "C100", "title": "The serve endpoint works with exactly the repositories the client described, taken from its own git repositories", "statement": "If the endpoint has all trees named in the description the client stored for a repository, the configuration it sets up is indistinguishable from the client's: along every path of local names it finds repositories with the same roots, file names and local names, and computes the same repository keys (hence the same target-cache keys). If a tree is missing, the request is refused. Whatever the blob says, only trees of the endpoint's own and configured git repositories are ever used, in the documented order, and all bindings stay within the description.", "quantifier": "all client configurations (including cyclic ones and ones with equal repositories), all blobs sent by clients, all sets of git repositories of the endpoint", "why_tests_cant": "Client and server number repositories differently and agree only through a text; a test serves one fixed repository.", "anchors": ["src/buildtool/serve_api/serve_service/target_utils.cpp:DetermineRoots", "src/buildtool/serve_api/serve_service/target_utils.cpp:GetServingRepository", "src/buildtool/common/repository_config.cpp:BuildGraphForRepository"]}
{"id": "C101", "title": "The serve endpoint reads a request for a target as the client meant it", "statement": "The dispatch list and the execution properties a client sends arrive unchanged, so that the endpoint uses the shard of the target cache described by them, and a different one for every other choice. From the blob of the target-cache key the endpoint reads the repository key, the target and the configuration the key was made of; analysing that target leaves the configuration as it is and computes the very key that was asked for. No request terminates the endpoint.", "quantifier": "all properties, all dispatch lists, all targets, all configurations made of JSON values, all repositories as for C100", "why_tests_cant": "The client describes its request by texts written by one part of the program and read by another; a test sends one request.", "anchors": ["src/buildtool/serve_api/serve_service/target.cpp:CreateRemoteExecutionConfig", "src/buildtool/serve_api/serve_service/target.cpp:GetDispatchList", "src/buildtool/serve_api/serve_service/target.cpp:ServeTarget", "src/buildtool/serve_api/remote/target_client.cpp:ServeTarget", "src/buildtool/common/remote/port.hpp:ParsePort", "src/buildtool/common/remote/remote_common.hpp:ParseDispatch"]}
{"id": "C102", "title": "What a client gets from the serve endpoint for an export target is what it would have built itself", "statement": "If the endpoint returns an entry for an export target, the entry is the result of building the target, and all targets it needs, with the execution properties of the client; the blob of the entry and all artifacts it mentions are then available at the remote-execution endpoint. A target that can be built and whose roots are known is served, and served again without building. The target caches of the endpoint keep that property, and stay closed under implied export targets, whatever is asked. A client using the endpoint obtains the same result as without it, and its build does not fail because the endpoint cannot serve a target it could build itself.", "quantifier": "all graphs of export targets, all results of building, all execution properties, all states of the target caches reached by any sequence of requests, all failures of writing and uploading", "why_tests_cant": "The claim is about every history of requests from clients with different properties; the tests of the endpoint use one client and one set of properties.", "anchors": ["src/buildtool/serve_api/serve_service/target.cpp:ServeTarget", "src/buildtool/main/build_utils.cpp:WriteTargetCacheEntries", "src/buildtool/build_engine/target_map/export.cpp:ExportRule", "src/buildtool/serve_api/remote/target_client.cpp:ServeTarget", "src/buildtool/build_engine/target_map/absent_target_map.cpp:WithFlexibleVariables"]}
{"id": "C103", "title": "An export target of an absent repository has the value it would have if the repository were there", "statement": "The variables the serve endpoint reports for a target are exactly those its rule would read from the targets file, taken from the first of its repositories that has the file; anything that is not a well-formed export target is refused. The client prunes the configuration to these variables, as the rule would, and looks the target up after at most one change of the configuration. A value found in the local cache or returned by the endpoint is the one a client that has the repository computes.", "quantifier": "all targets files (any JSON value), all sets of repositories of the endpoint, all configurations, all graphs of export targets, all clients", "why_tests_cant": "Absent and present repositories are handled by different code on both sides, and agree only in what they compute.", "anchors": ["src/buildtool/serve_api/serve_service/target.cpp:ServeTargetVariables", "src/buildtool/serve_api/serve_service/target_utils.cpp:GetBlobContent", "src/buildtool/build_engine/target_map/absent_target_map.cpp:WithFlexibleVariables", "src/buildtool/build_engine/target_map/export.cpp:ExportRule", "src/buildtool/build_engine/base_maps/field_reader.hpp:ReadStringList"]}
{"id": "C104", "title": "The serve endpoint serves the trees of the commits, archives, and files it is asked for", "statement": "For a request for the tree of a commit, of an archive, or of a list of files, a tree is in the reply if and only if the status is OK or SYNC_ERROR, and then it is the tree asked for (of the commit with the given hash, of the archive with the given hash extracted at the given place with symbolic links resolved, or of the directory with files of these names, types, and hashes), and the endpoint has it with everything it refers to; if it was to be put to the remote and the status is OK, it is there. A tree is said to be known only if the endpoint has it. So the answers just-mr relies on are honest. What is at hand (in the storage, or in a configured repository) is served without asking the remote. The endpoint is not terminated by a request.", "quantifier": "all requests handled concurrently in any interleaving with each other and with runs of just-mr on the same storage, all configured repositories, all generations, garbage collection, and processes killed at any point; all answers of the remote that are honest", "why_tests_cant": "Many interleavings of requests, several places content may come from, and files remembering results across requests.", "anchors": ["src/buildtool/serve_api/serve_service/source_tree.cpp:ServeCommitTree", "src/buildtool/serve_api/serve_service/source_tree.cpp:ServeArchiveTree", "src/buildtool/serve_api/serve_service/source_tree.cpp:ServeDistdirTree", "src/buildtool/serve_api/serve_service/source_tree.cpp:ResolveContentTree", "src/buildtool/serve_api/serve_service/source_tree.cpp:CheckRootTree", "src/buildtool/serve_api/serve_service/source_tree.cpp:GetRemoteTree", "src/buildtool/serve_api/remote/source_tree_client.cpp:ServeCommitTree"]}
{"id": "C105", "title": "A rebuild finds the actions that are not reproducible, and reports nothing else", "statement": "For just rebuild: an output reported as flaky is one of a result of executing the action again, and the cache has a different object for it in its result for the same action; an action reported as cache miss has been executed and the cache has no result for it. Conversely, if a rebuild ends without failure and nothing is reported about the actions an artifact is made by (directly or indirectly), then its object is the same as in a build that takes all results from the cache. The summary counts what is reported, and each command is compared or missed. Everything needed is available at the remote after a rebuild, as after a build.", "quantifier": "all graphs, all interleavings of the traversal, all results of running actions (not assumed deterministic), all contents of the cache, other clients adding objects at any time", "why_tests_cant": "Whether a run is compared completely depends on all actions below, on the order, and on non-determinism.", "anchors": ["src/buildtool/execution_engine/executor/executor.hpp:Rebuilder::Process", "src/buildtool/execution_engine/executor/executor.hpp:DetectFlakyAction", "src/buildtool/execution_engine/executor/executor.hpp:RecordFlakyAction", "src/buildtool/execution_engine/executor/executor.hpp:DumpFlakyActions", "src/buildtool/graph_traverser/graph_traverser.cpp:TraverseRebuild"]}
{"id": "C106", "title": "Rules are accepted exactly if well-formed, and mean what is written in the files", "statement": "A rule is accepted if and only if its definition has the required form, no field has a reserved name, no name is used for fields of different kinds, configuration transitions are given for fields of targets only, anonymous fields refer to target fields, and every imported function, and everything imported by it in turn, can be read, without cycles. An accepted rule is what is written: its expression and its transitions evaluate as if, at each call, the called name were looked up in the imports written next to the calling expression, in the file defining that expression, with names resolved in the context of that expression. Every field of targets has exactly the transition given for it, and otherwise the one leaving the configuration unchanged. A function that imports itself, directly or not, is never loaded, nor is anything that needs it.", "quantifier": "all contents of rule and expression files, all import graphs, all expressions and environments", "why_tests_cant": "Import graphs are unbounded and span repositories; a name resolved in the wrong context shows only if both contexts define it; the test for fields of several kinds depends on sorting.", "anchors": ["src/buildtool/build_engine/base_maps/rule_map.cpp:CreateRuleMap", "src/buildtool/build_engine/base_maps/expression_map.cpp:CreateExpressionMap", "src/buildtool/build_engine/base_maps/user_rule.hpp:UserRule::Create", "src/buildtool/build_engine/base_maps/user_rule.hpp:FindDuplicates", "src/buildtool/build_engine/base_maps/field_reader.hpp:ReadEntityAliasesObject", "src/buildtool/build_engine/base_maps/expression_function.hpp:Evaluate"]}
{"id": "C107", "title": "Certificate verification and proxies follow the git configuration for the URL", "statement": "When fetching over git, certificates are verified unless GIT_SSL_NO_VERIFY is set, or the best matching http.<url>.sslVerify entry is false, or no such entry with a usable value matches and http.sslVerify is false. A key matches a URL if and only if scheme and port agree, the user agrees if the key has one, the host agrees label by label where an asterisk in the key stands for any one label, and the path of the key is a prefix of that of the URL in full components. The best match has the longest host, then the longest path, then a user, and the latest of equally good ones wins. No proxy is used for hosts excluded by no_proxy or NO_PROXY, that is, if the labels of a pattern are the last ones of the host and its port, if any, is that of the URL; otherwise the best matching http.<url>.proxy entry decides, then http.proxy, then the variables for the scheme of the URL.", "quantifier": "all URLs, configurations, environments, and parsers of URLs", "why_tests_cant": "The outcome depends on the combination of all entries of all configuration files and their order; a wrong tie-break or prefix test disables verification only for particular combinations of keys and URLs.", "anchors": ["src/other_tools/git_operations/git_config_settings.cpp:GitConfigSettings::GetSSLCallback", "src/other_tools/git_operations/git_config_settings.cpp:GitConfigSettings::GetProxySettings", "src/other_tools/utils/curl_url_handle.cpp:CurlURLHandle::MatchConfigKey", "src/other_tools/utils/curl_url_handle.cpp:CurlURLHandle::ParseConfigKey", "src/other_tools/utils/curl_url_handle.cpp:CurlURLHandle::NoproxyStringMatches"]}
{"id": "C108", "title": "Computed roots are evaluated in order, to the same trees whatever the schedule", "statement": "Before a build, every root that is given as the artifacts of a target or as the structure of a tree, in any repository the main one depends on, is replaced by a root with the tree it stands for; nothing else in the configuration changes. A root is evaluated only after all roots the referenced repository depends on, so that what is read for it does not change meanwhile. The outcome depends neither on the order in which roots are evaluated in parallel, nor on the cache or the serve endpoint, except for whether the content is available locally. Evaluation ends; it succeeds unless a root depends on itself or an error is reported, and it never succeeds if a root depends on itself. A root that is to be absent is known to the serve endpoint afterwards.", "quantifier": "all repository configurations, schedules, and answers of cache, serve endpoint and builds", "why_tests_cant": "Roots are set in place in a shared configuration by tasks running in parallel; a root evaluated too early, or a configuration changed while it is read, shows only for particular interleavings.", "anchors": ["src/buildtool/computed_roots/evaluate.cpp:EvaluatePrecomputedRoots", "src/buildtool/computed_roots/evaluate.cpp:FillRoots", "src/buildtool/computed_roots/evaluate.cpp:ComputeAndFill", "src/buildtool/computed_roots/evaluate.cpp:ResolveTreeStructureRoot", "src/buildtool/computed_roots/evaluate.cpp:GetRootDeps", "src/buildtool/common/repository_config.cpp:RepositoryConfig::SetPrecomputedRoot"]}
{"id": "C109", "title": "What is added to the CAS is what is on disk", "statement": "If add-to-cas prints an identifier for a directory, the tree it names shows exactly what is in the directory: all files with their content and executable bit, all directories, and for links what the option asks for (kept, left out, or replaced by what they lead to). Everything the tree refers to is in the CAS, with the right content. By default, a directory with a link leading upwards or a special file is an error, and any other directory is accepted. Unless links to anywhere are asked for, nothing from outside the directory gets in. For single files and links, the content is stored and the file is left as it is. Adding does not change what is added.", "quantifier": "all directories with links, nested and shared to any depth, all options, all contents of the CAS", "why_tests_cant": "Links can pass other links, lead out of the directory and back, or form cycles, and entries reached in several ways are shared; tests cover only a few fixed directories, and do not look at the files afterwards.", "anchors": ["src/buildtool/main/add_to_cas.cpp:AddArtifactsToCas", "src/buildtool/main/add_to_cas.cpp:CreateGitTreeDigest", "src/buildtool/file_system/file_system_manager.hpp:ReadDirectory", "src/buildtool/file_system/file_system_manager.hpp:ResolveSymlinks", "src/buildtool/file_system/object_cas.hpp:StoreBlob", "src/buildtool/file_system/file_storage.hpp:AddFromFile"]}
{"id": "C110", "title": "What is fetched from the CAS is the object asked for", "statement": "install-cas accepts each object identifier that is printed, and the liberal forms the documentation describes, with its defaults for missing sizes and types; nothing else is accepted. The object installed is the one identified, or the one at the path given inside it; if there is none, that is an error. It is installed at the output path, or in it under its hash if that is a directory, with exactly its files; nothing else is changed. An archive asked for has exactly the files, links and directories of the tree. If everything is there and nothing is in the way, fetching succeeds; without success there is an error, and an object to be remembered is in the local CAS afterwards.", "quantifier": "all identifiers, all contents of the CAS, all trees, all paths inside them, all file systems and output paths", "why_tests_cant": "Identifiers, trees, paths inside them and what is on disk at the output path can be combined without bound; tests cover a few identifiers and one tree, and do not simulate failing disks or incomplete CAS.", "anchors": ["src/buildtool/main/install_cas.cpp:FetchAndInstallArtifacts", "src/buildtool/main/install_cas.cpp:ObjectInfoFromLiberalString", "src/buildtool/execution_api/utils/subobject.cpp:RetrieveSubPathId", "src/buildtool/main/archive.cpp:GenerateArchive", "src/buildtool/main/archive.cpp:add_to_archive"]}
{"id": "C111", "title": "Remote execution reports only what the endpoint found or computed for the action", "statement": "For an action at a remote endpoint, the result reported is either a result found in the action cache, with exit code 0 and all outputs asked for, or the result of a finished operation for that action, executed after all its blobs are uploaded. The action cache is asked if and only if results are to be cached, and nothing is executed if results are to be from the cache only. Calls are repeated after failures in passing only (connection lost, deadline exceeded, or endpoint unable to start the action), up to the configured number of attempts; an operation that is still running is waited for. Otherwise there is no result; all this ends. A result reported as cached is a successful one, with all outputs.", "quantifier": "all actions, caching policies, request modes, answers of the endpoint to every call, numbers of attempts between 1 and 2^32 - 2", "why_tests_cant": "What an endpoint answers to each of many calls, with failures at any place, can be combined without bound; tests run against one well-behaved endpoint.", "anchors": ["src/buildtool/execution_api/remote/bazel/bazel_action.cpp:BazelAction::Execute", "src/buildtool/execution_api/remote/bazel/bazel_network.cpp:BazelNetwork::ExecuteBazelActionSync", "src/buildtool/execution_api/remote/bazel/bazel_execution_client.cpp:BazelExecutionClient::Execute", "src/buildtool/execution_api/remote/bazel/bazel_execution_client.cpp:BazelExecutionClient::ReadExecution", "src/buildtool/execution_api/remote/bazel/bazel_execution_client.cpp:BazelExecutionClient::ExtractContents", "src/buildtool/execution_api/remote/bazel/bazel_ac_client.cpp:BazelAcClient::GetActionResult"]}
{"id": "C112", "title": "just-mr update changes the commits asked for, and nothing else", "statement": "The configuration that just-mr update prints has, for each repository named, the commit that the remote repository has for the branch; everything else is the same as in the configuration file. Without names, the configuration is printed as it is. Updating succeeds if each repository named is a git repository whose branch is there; it fails if a name is unknown or not that of a git repository, or the branch can not be found, and nothing is printed then.", "quantifier": "all configurations, all lists of names, all references and answers of remote repositories, all environments", "why_tests_cant": "Configurations and the references of remote repositories are unbounded; tests update one repository with one branch.", "anchors": ["src/other_tools/just_mr/update.cpp:MultiRepoUpdate", "src/other_tools/ops_maps/git_update_map.cpp:CreateGitUpdateMap", "src/other_tools/git_operations/git_repo_remote.cpp:GitRepoRemote::UpdateCommitViaTmpRepo", "src/other_tools/git_operations/git_repo_remote.cpp:GitRepoRemote::GetCommitFromRemote"]}
{"id": "C113", "title": "Mirrors are tried in the documented order, and a fetch fails only if all of them fail", "statement": "For archives and for commits, the local mirrors given for the primary URL are tried first, in the order given, then the URL and its mirrors: those with a preferred host name first, in the order of the preferred host names, and otherwise in the order given. No location is left out, and none is tried more often than it is named. Locations are tried until one answers; nothing is contacted after that. Fetching an archive succeeds only with content that has the hash and the checksums given, and fails only if it can be fetched neither from a local mirror, nor from the URL, nor from any of its mirrors; the same for commits. For commits, the variables taken over from the environment are those of the repository and those given in addition.", "quantifier": "all URLs and lists of mirrors, all JSON values given for local mirrors, preferred host names and variables, all host names found in URLs, all answers of locations, also depending on what was asked before", "why_tests_cant": "Lists of mirrors and host names are unbounded, and what locations answer is outside of the program; tests use a fixed list with two or three host names and never a location that answers with something else.", "anchors": ["src/other_tools/just_mr/mirrors.hpp:MirrorsUtils::SortByHostname", "src/other_tools/just_mr/mirrors.hpp:MirrorsUtils::GetLocalMirrors", "src/other_tools/just_mr/mirrors.hpp:MirrorsUtils::GetPreferredHostnames", "src/other_tools/just_mr/mirrors.hpp:MirrorsUtils::GetInheritEnv", "src/other_tools/utils/content.hpp:NetworkFetchWithMirrors", "src/other_tools/ops_maps/content_cas_map.cpp:FetchFromNetwork", "src/other_tools/root_maps/commit_git_map.cpp:NetworkFetchAndSetPresentRoot"]}
{"id": "C114", "title": "Which target is meant by a call of just, and in which workspace, module and configuration", "statement": "Without an explicit workspace, the workspace is the closest directory, from the working directory upwards, with an entry ROOT, WORKSPACE, or .git, and there is an error if and only if there is none. If no module is given, the module is the closest directory with a target file, from the working directory up to the workspace, or the top-level module if there is none or the working directory is outside of the workspace. Given a module, or a repository and a module, the target does not depend on the working directory. If no name is given, the lexicographically first target of the module is taken, and there is an error if and only if it has none. The value of a configuration variable is that of the last definition on the command line that has it, or else of the configuration file.", "quantifier": "all working directories, workspaces, target roots, arguments, configuration files and lists of definitions", "why_tests_cant": "Depth of directories, contents of roots, and number of definitions are unbounded; tests call the tool from the top-level directory or one fixed subdirectory with at most one definition.", "anchors": ["src/buildtool/main/main.cpp:FindRoot", "src/buildtool/main/main.cpp:ReadConfiguration", "src/buildtool/main/main.cpp:DetermineCurrentModule", "src/buildtool/main/main.cpp:ReadConfiguredTarget", "src/buildtool/main/main.cpp:DetermineWorkspaceRootByLookingForMarkers", "src/buildtool/common/cli.hpp:SetupAnalysisArguments"]}
{"id": "C115", "title": "What just-mr fetch puts into the distribution directory", "statement": "After a successful just-mr fetch, each archive, not marked absent unless asked for, among the repositories considered (all with --all, otherwise those reachable from the main repository) is in the output directory, or else the first existing distribution directory, under the name it is searched by: the distfile given, or else the last component of its URL. Nothing else is changed, and each git tree among those repositories was obtained. Without a directory to write to, there is an error. If all repositories are well-formed and everything can be obtained and written, fetching succeeds. It does not succeed if the description of a repository considered is not well-formed. A serve endpoint is used if and only if it says that it is in the same mode.", "quantifier": "all configurations, command-line arguments, distribution directories, states of the file system, and orders in which archives are processed", "why_tests_cant": "Configurations are unbounded and archives are fetched concurrently; tests fetch one or two archives with different names and content to an empty directory.", "anchors": ["src/other_tools/just_mr/fetch.cpp:MultiRepoFetch", "src/other_tools/ops_maps/archive_fetch_map.cpp:CreateArchiveFetchMap", "src/other_tools/utils/parse_archive.cpp:ParseArchiveContent", "src/other_tools/utils/parse_archive.cpp:ParseArchiveDescription", "src/other_tools/utils/parse_git_tree.cpp:ParseGitTree"]}
{"id": "C116", "title": "Which action is meant by --request-action-input, and what is its result", "statement": "A request %ID means the action with that identifier among the actions of all targets analysed; #N means the action with that index of the target, counted from 0, or from the end for negative numbers; without a prefix, it means the action with that identifier, or else with that index. That action is chosen, independently of the order of targets, and there is an error if and only if no action is meant. The artifacts of the result are the inputs of the action, there are no runfiles, and everything else about the action can be obtained from what is provided.", "quantifier": "all requests, analysis results, and actions", "why_tests_cant": "Requests and action graphs are unbounded; tests use one or two actions and well-formed requests.", "anchors": ["src/buildtool/main/analyse.cpp:AnalyseTarget", "src/buildtool/main/analyse.cpp:GetActionNumber", "src/buildtool/main/analyse.cpp:SwitchToActionInput", "src/buildtool/build_engine/target_map/result_map.hpp:GetAction"]}
{"id": "C117", "title": "Dumps of nodes and of anonymous targets define all identifiers that are shown", "statement": "The dump of nodes (--dump-nodes) has exactly the nodes that are mentioned in what the target provides or, directly or indirectly, in the definition of such a node, each one under its identifier. The dump of anonymous targets (--dump-anonymous) has exactly the rule maps of the anonymous targets analysed, and exactly the nodes needed for them. No identifier is shown without its definition, and each one has one definition only.", "quantifier": "all provides maps, with nodes nested and shared to any depth, all lists of anonymous targets, and all functions giving identifiers", "why_tests_cant": "Nesting and sharing of nodes are unbounded; tests have a few fixed nodes.", "anchors": ["src/buildtool/main/diagnose.cpp:DumpNodesInExpressionToMap", "src/buildtool/main/diagnose.cpp:DumpExpressionToMap", "src/buildtool/main/diagnose.cpp:DumpNodes", "src/buildtool/main/diagnose.cpp:DumpAnonymous"]}
{"id": "C118", "title": "JSON shown to the user is complete, whatever the layout, and abbreviated only where it is too long", "statement": "The indented JSON of dumps, results, and the version is, apart from white space between the tokens, the usual text of the value; different values are shown differently. Line breaks are exactly at the keys and elements above the depth given, and the depth given for one key holds for the value of this key only. Values in error messages are shown in full if not longer than the limit; otherwise they are the text with all parts at some level replaced by a star, at the deepest level for which the text is within the limit. In a configuration shown, exactly the keys without value are left out.", "quantifier": "all JSON values, indentations, depths, and limits", "why_tests_cant": "Values are unbounded; unit tests have a few small ones, and the comparison with the parsed text is in debug builds only.", "anchors": ["src/utils/cpp/json.hpp:IndentListsOnlyUntilDepth", "src/utils/cpp/json.hpp:IndentOnlyUntilDepth", "src/utils/cpp/json.hpp:TruncateJson", "src/utils/cpp/json.hpp:AbbreviateJson", "src/utils/cpp/json.hpp:PruneJson"]}
{"id": "C119", "title": "The dump of targets lists exactly the configured targets analysed", "statement": "The dump of targets (--dump-targets, --dump-export-targets) is always written. It has, for each target defined in a target file and each anonymous target, exactly the configurations in which it was given, in the order given; there are no other lists in it and no empty ones, and targets with similar names, such as a target with the name of a module, do not get into the entries of each other. Source files are not listed.", "quantifier": "all lists of configured targets, all names of repositories, modules, and targets, all identifiers", "why_tests_cant": "The names are arbitrary and are keys on different levels of the same JSON object; tests have a few fixed ones.", "anchors": ["src/buildtool/main/diagnose.cpp:DumpTargets"]}
{"id": "C120", "title": "TLS is used exactly if asked for, with the files given, and services admit only clients of their authority", "statement": "Building the authentication succeeds exactly if all files given can be read, the file of the authority is not empty, and certificates come with keys. Then TLS is used, by channels and services, exactly if any of the options is given: never is a connection insecure after an option for TLS. A client offers the certificate and key given and trusts the authority given; a service has the pair given. With mTLS enabled, a service serves only clients with a certificate of its authority (violated: client certificates are never requested).", "quantifier": "all combinations of options given or not, all files readable or not with all contents, all clients", "why_tests_cant": "Tests start services and clients with matching certificates; that a client without one is refused would have to be seen for all clients and all sets of files.", "anchors": ["src/buildtool/auth/authentication.hpp:Auth::TLS::Builder::Build", "src/buildtool/common/remote/client_common.hpp:CreateChannelWithCredentials", "src/buildtool/execution_api/execution_service/server_implementation.cpp:ServerImpl::Run", "src/buildtool/main/main.cpp:CreateAuthConfig"]}
